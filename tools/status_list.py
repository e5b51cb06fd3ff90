S("C01", "proved")
S("C02", "proved")
S("C03", "proved")
S("C04", "partial", """The full claim (every zone argument) is false of the code; proved when target and origin share zone and hemisphere and the
 explicit zone, if any, is the origin's own; two counterexample theorems show the failures.""")
S("C05", "proved")
S("C06", "partial", "False of the code across a zone boundary (counterexample proved); proved when both longitudes lie in one zone.")
S("C07", "proved")
S("C08", "proved")
S("C09", "proved")
S("C10", "proved")
S("C11", "proved")
S("C12", "proved")
S("C13", "proved")
S("C14", "proved")
S("C15", "proved")
S("C16", "proved")
S("C17", "proved")
S("C18", "proved")
S("C19", "proved")
S("C20", "proved")
S("C21", "partial", """The label-order independence is false of the code when predictions are NaN-free (counterexample proved);
 the NaN branch is proved order-independent.""")
S("C22", "proved")
S("C23", "proved")
S("C24", "partial", "False of the code: zero mean error in either direction gives NaN (proved for every layout); for nonzero errors the prediction is finite and within an explicit bound of the plan position.")
S("C85", "partial", "False of the code: NaN in a further column changes the branch (counterexample); proved when further columns hold no NaN.")
S("C86", "proved")
S("C87", "partial", "False of the code: with columns (N, E) the result is off by an exact, proved amount; the selection and the site tables are proved independent of the order.")
for _i in (25, 26, 27, 28, 30, 31, 32, 33, 34, 35, 36, 88):
    S("C%02d" % _i, "proved")
S("C29", "partial", "False of the code: gagne after jamaly with the same dictionary raises (proved for every valid dictionary); every sequence without a gagne call after a jamaly call is proved equal to fresh copies.")
for _i in (37, 38, 39, 40, 41, 42, 91, 95):
    S("C%02d" % _i, "proved")
S("C89", "partial", "False of the code (counterexample: pulse [1,1,0] delayed by one sample is reported as advanced by two); proved for signals of zero mean.")
S("C90", "partial", "False of the code on ties (counterexample); peak, mean and zero-lag values proved equal always, delays when the peak lag is unique.")
S("C92", "partial", "False of the code in mode 'loop' (proved for every surplus); the other mismatches are proved to raise.")
S("C93", "partial", "False of the code for several columns with 'coeff' (proved to raise for every shape but one, and wrong scaling there); one pair of columns proved.")
S("C94", "partial", "False of the code in mode 'loop' (proved for all constant signals); mode 'fft' proved.")
S("C96", "partial", "False of the code when the second signal is longer (sign flips, counterexample); proved for len(estimation) <= len(baseline), scaling unbiased_coeff.")
S("C97", "partial", "False of the code for 'fit' (counterexample); proved for 'multi'.")
S("C98", "partial", "False of the code (proved for every column starting with NaN, and for constant detrending with a rectangular window); proved: exactly the bins before the first NaN count.")
S("C99", "partial", "False of the code ('multi' always, 'fit' for the zero frequency); proved for 'fit' with no bin at all and for all-NaN columns.")
S("C101", "partial", "False of the code for freq_limit=None (proved for all inputs); proved with a frequency limit.")
S("C104", "partial", "False of the code for a Series (proved for all inputs); proved for a DataFrame.")
S("C107", "partial", "False of the code for colliding names with 'fit' (proved for all data); proved for 'multi' and for distinct names.")
for _i in [43, 44, 45, 46, 47, 53, 100, 102, 103, 105, 106]:
    S("C%02d" % _i, "proved")
for _i in [48, 49, 51, 52, 54, 110, 111, 112]:
    S("C%02d" % _i, "proved")
S("C50", "partial", "False of the code for odd extents (proved for all of them); proved for the grid -N dx/2 .. N dx/2 - dx.")
S("C108", "partial", "False of the code for odd extents (proved for all of them); the exact error factor exp(4 pi i f x0/V) is proved for every regular grid and its absence for x0 = -N dx/2.")
S("C109", "partial", "False of the code for every series (proved); proved for frequency vectors that cover the data's frequencies.")
for _i in [55, 56, 57, 58, 59, 61, 62, 113]:
    S("C%02d" % _i, "proved")
S("C60", "partial", "False of the code when tau*dt is not a whole number of seconds (counterexample; the truncated grouping is proved instead); proved otherwise.")
S("C63", "partial", "False of the code for DataFrames with a maximum other than 2 (counterexample); proved for Series and for frames with maximum 2.")
S("C114", "partial", "False of the code for different column names (proved for all data); proved for equal names.")
S("C115", "partial", "False of the code after a day without records (counterexample); proved whenever the day n_days earlier has a record.")
for _i in (64, 68, 70, 120, 121):
    S("C%02d" % _i, "proved")
S("C65", "partial", "False of the code for vs > 180 (all weights NaN, proved); everything else proved.")
S("C66", "partial", "False of the code for small fields (AssertionError, proved for every five distinct values); the exact count, the acceptance threshold and the accepted masks are proved.")
S("C67", "partial", "The converse is false of the code (one-cell clouds, proved for every mask); everything else proved.")
S("C69", "partial", "False of the code for outliers and for the bound 1 (counterexamples); mean and clear cells proved, ranges proved without outliers.")
S("C116", "partial", "False of the code at vs = 0 (counterexample); proved for 0 < vs < vs' < 180.")
S("C117", "partial", "False of the code for cloud cells (counterexample); nonnegativity and the bound on clear and edge cells proved.")
S("C118", "partial", "False of the code when the path leaves the field (proved for all such paths); proved inside the field.")
S("C119", "partial", "False of the code: the parameter is ignored with 'original' (proved for all inputs). Proved for 'basic' (C119_basic_partial, sizes up to 316): the cells with an edge in their window are scaled from 1 to ktmax and the other cloudy ones from kt1pct; a larger size keeps the former with their values and adds further ones.")
for _i in (71, 72, 73, 74, 75, 77):
    S("C%02d" % _i, "proved")
S("C76", "partial", "\"Higher K, slower decay\" is false of the code below K = 1/2 (proved); value, lower bound, monotonicity in the parameter and monotonicity above 1/2 proved.")
S("C78", "partial", "False of the code when one of speed and direction is a number and the other a list (proved for all such calls); proved otherwise, with all rejections.")
S("C122", "partial", "False of the code (CDF of every scalar input is 1, proved for every mixture); proved for the density.")
S("C123", "partial", "False of the code at CDF value 1 (proved for every grid); proved below.")
S("C124", "partial", "False of the code at mean 0 (proved); proved for the defaults on [0.01, 1] and the equivalence in general.")
S("C125", "partial", "False of the code for one-element arrays below the bound (proved for all of them); proved for two or more.")
S("C126", "partial", "The second half is false of the code (proved for every generator and input); reproducibility proved.")
S("C127", "proved", "Proved for all inputs with Mathlib's gaussianReal and independence; the canonical sequence space is the instance.")
for _i in (80, 81, 134):
    S("C%02d" % _i, "proved")
S("C79", "partial", "False of the code for a crash inside a file (proved for every server, list and number of re-runs); completion, idempotence, recovery from every other crash and non-modification proved.")
S("C82", "partial", "False of the code for longer gaps (proved for every such series sampled each second); proved for series without longer gaps, and that values are never altered.")
S("C83", "partial", "False of the NRCAN converter (proved for every input); proved for the HOPE converter.")
S("C84", "partial", "False of the code for evenly spaced records off the grid (proved for all of them); proved otherwise.")
S("C128", "partial", "False of the code for shared names (proved); proved for distinct names.")
S("C129", "partial", "False of the code for directories (proved); proved when only files are listed.")
S("C130", "partial", "False of the code below 2*limit samples (proved for all such series); proved from there on.")
S("C131", "partial", "False of the code outside the first sensor's labels and for a sensor named tmp (both proved); otherwise the whole conversion is proved to write every sensor's own values.")
S("C132", "partial", "False of the code (proved); only the failure to list the directory is harmless.")
S("C133", "partial", "False of the code without sensor files (proved); proved for all other failures of the loop.")
S("C135", "proved")
S("C136", "proved")
S("C137", "proved")
S("C138", "proved")
S("C139", "proved")
S("C140", "proved")
S("C141", "partial", "False of the code for another column order (proved); proved when columns and rows are in the same order.")
S("C142", "proved")
S("C143", "proved")
S("C144", "partial", "False of the code for files with different stations (proved); proved for files with the same stations in any order.")
S("C145", "partial", "False of the code for the name of the method (proved); proved for the dataset.")
S("C146", "proved")
S("C147", "partial", "False of the code for generators and pandas Series (proved); proved for lists, tuples, arrays and sets.")
S("C148", "partial", "False of the code for two or more columns (proved); proved for one column.")
S("C149", "partial", "False of the code for integer centers with a float reference (proved); proved otherwise.")
S("C150", "partial", "False of the code across a zone border and for a frame as reference (proved); proved within one zone and hemisphere, and for a row.")
S("C151", "partial", "False of the code for frames (proved); proved for Series.")
S("C152", "partial", "False of the code (proved); proved for the other settings and for rejected calls.")
S("C153", "partial", "False of the code above a score of 0.018 (proved); proved below.")
S("C154", "proved")
S("C155", "proved")
S("C156", "proved")
S("C157", "proved")
S("C158", "proved")
S("C159", "proved")
S("C160", "proved")
S("C161", "proved")
S("C162", "partial", "Violated by the code if the GOOD delays are all equal (C162_violated_equal_delays); proved if two GOOD delays differ.")
S("C163", "partial", "Violated by the code for every null result (C163_violated_null_result); proved with at least two GOOD pairs; the pairs and their flags are always there (C163_pairs).")
S("C164", "proved")
S("C165", "partial", "Violated by the code for displacements perpendicular to one of the motions (C165_violated_left_in_place); proved otherwise for mode 'all', and for every mode if the sites used are at their places.")
S("C166", "proved")
S("C167", "proved")
S("C168", "proved")
S("C169", "partial", "Violated by the code between the first and second round for references not in ascending order (C169_violated_order); proved from the second round on.")
S("C170", "proved")
S("C171", "partial", "Violated by the code if the name of an inverter is part of another one's (C171_violated_same_place); proved otherwise.")
S("C172", "partial", "Violated by the code when the procedure ends without having converged (C172_violated_reports_other); proved: what changed contains, and that the mapping is the last one if changed is empty.")
S("C173", "proved")
S("C174", "proved")
S("C175", "partial", "Violated by the code for displacements at right angles to a motion of every kept pair (C175_violated_confirms_wrong_plan); proved for mode 'all' if every misplaced combiner is displaced obliquely to a kept pair.")
S("C176", "proved")

S("C177", "proved")
S("C178", "partial", "Violated by the code if navgs does not divide the number of samples (C178_violated_count); proved: exact if it does, never fewer, monotone in the overlap.")
S("C179", "proved")
S("C180", "partial", "Violated by the code for sites abreast of each other (C180_violated_abreast); proved if all sites are at different distances along the motion.")
S("C181", "proved")

S("C182", "partial", "Violated by the code for sensors in line along or across the motion (C182_violated_line); proved: exactly which plants can be read, and the length and order of the series.")
S("C183", "proved")
S("C184", "proved")
S("C185", "proved")
S("C186", "proved")
S("C187", "partial", "Violated by the code: the flag of the first row is used for all (C187_violated_first); proved: which rows are kept.")
S("C188", "partial", "Violated by the code for hours with fewer than two GOOD pairs (C188_violated_quiet_hour) or without the closing sample (C188_violated_last_hour); proved: exactly when the table is completed, and its contents.")
S("C189", "proved")
S("C190", "proved")
S("C191", "partial", "Violated by the code for even filter sizes (C191_violated_even); proved for odd sizes, and transposition, monotonicity for all.")
S("C192", "proved")
S("C193", "proved")
S("C194", "partial", "Violated by the code: pixres is ignored (C194_violated_ignored, C194_violated_duration); proved for one second per cell.")
S("C195", "proved")
S("C196", "proved")
S("C197", "proved")
S("C198", "proved")
S("C199", "partial", "Violated by the code (C199_violated_units): the limit 0.001 of the standard deviation cannot be converted; proved for data that are above or below it in both units.")
S("C200", "proved")
S("C201", "proved")
S("C202", "proved")
S("C203", "proved")
S("C204", "proved")
S("C205", "proved")
S("C206", "proved")
S("C207", "partial", "The score of a plant can exceed that of every sensor (C207_violated_smoothing); proved: it is at most the mean ramp magnitude of the sensors.")
S("C208", "proved")
S("C209", "partial", "Violated by the code with missing samples (C209_violated_missing); proved for complete records.")
S("C210", "proved")
S("C211", "partial", "Violated by the code for files with other kinds of outlines (C211_violated); proved for combiners only.")
S("C212", "partial", "Violated by the notebook when a site has no coherence (C212_violated_missing); proved when all coherences are numbers.")
S("C213", "proved")
S("C214", "proved")
S("C215", "proved")
S("C216", "proved")
S("C217", "proved")
S("C218", "proved")
S("C219", "proved")
S("C220", "proved")
S("C221", "proved")
S("C222", "proved")
S("C223", "proved")
S("C224", "proved")
S("C225", "proved")
S("C226", "proved")
S("C227", "proved")
S("C228", "proved")
S("C229", "proved")
S("C230", "proved")
S("C231", "proved")
S("C232", "proved")
S("C233", "proved")
S("C234","proved")
S("C235","partial","Violated: DESCS is itself a member of the enumeration, cannot be subscripted, is keyed by numbers and has no entry for STATS. Proved: the texts behind it for all other flags, and that STATS is never reported.")
S("C236","proved")
S("C237","proved")
S("C238","proved")
S("C239","proved")
S("C240","partial","Violated: see the C240_violated theorems; the labels are right for the inclusions stated in the _partial theorems.")
S("C241","partial","Violated: see the C241_violated theorems (OVERCAST, LOWCORR, VELLIMIT, NOSIGNAL, NOLAG, ALLBAD). Proved: the condition each flag does imply.")
S("C242","proved")
S("C243","proved")
S("C244","proved")
S("C245","proved")
S("C246","proved")
S("C247","partial","False of the code for even lengths when the value at half the sampling rate is not real (C247_violated_half: the Marcos filter, every plant area). C247_product_partial: filters of real systems.")
S("C248","proved")
S("C249","partial","False of the code: ValueError for every pair of records (C249_violated). C249_twosided_partial: continued to negative frequencies the transfer function reproduces the output.")
S("C250","proved")
S("C251","proved")
S("C252","proved")
S("C253","proved")
S("C254","proved")
S("C255","proved")
S("C256","partial","False of the code: compute_delays_tf does not remove offsets (detrend=None); with method 'multi' an offset changes the phase at frequency 0, which enters the sum of phases and the unwrapping, and removing the mean makes that bin NaN and the delay 0 (C256_violated_offset, C256_violated_mean). Proved: positive gains have no effect on delays, masks and mean coherences of frames (C256_gains_partial); with the rectangular window offsets have no effect on the delays if all values stay positive (C256_offsets_partial; for method 'fit' a bin other than frequency 0 must be in the mask).")
S("C257","proved")
S("C258","proved")
S("C259","proved")
S("C260","proved")
S("C261","partial","False of the code: average ranks of ties make the score discontinuous; a steady ramp changed by any amount however small can have twice the score (C261_violated). Proved: the score grows at most to twice its value plus 2e, and by at most 2e if the series has no two ramps of equal magnitude (C261_bound_partial).")
S("C262","proved")
S("C263","partial","False next to the eastern border of a zone: with 53 digits the longitude -2^-60 is in zone 31 (C263_violated). Proved: right or one too large, the latter only within 1.3e-13 degrees of the border (C263_zone_partial).")
S("C264","partial","False at the border of cells: 0.3 m at 0.1 m/s reads from row 2 with 53 digits (C264_violated). Proved: the right cell away from borders, and never more than one cell off (C264_cell_partial).")
S("C265","partial","False of the code: from 180 degrees on every longitude is put into zone 60 (C265_violated_east), below -180 the number is no zone (C265_violated_west). Proved: the zone given by the caller and zone 60 (C265_given_zone_partial).")
S("C266","proved")
S("C267","proved")
S("C268","proved")
S("C269","proved")
S("C270","partial","False of the code: the product of segment length and overlap may be rounded below a whole number (C270_violated). Proved: right away from whole numbers, at most one sample off, exact for half overlap.")
S("C271","partial","False of the code: sites at the border between two samples may be lost or counted twice (C271_violated_none, C271_violated_two). Proved: right for all samples that are not within rounding of the end of a site.")
S("C272","proved")
S("C273","partial","False of the code: rounding makes equal ramps different and doubles the score (C273_violated). Proved: never more than double or half apart from rounding, and right to within rounding if the ramps differ enough.")
S("C274","proved")
S("C275","proved")
S("C276","proved")
S("C277","proved")
S("C278","proved")
S("C279","proved")
S("C280","proved")
S("C281","partial","Proved for records with a standard deviation of at least 1 % of their root mean square (C281_error_partial). For sensors that do not vary it fails (C281_violated): with IEEE rounding three samples of 0.1 give an infinite peak_corr, because the computed mean is not 0.1 and what is left has the standard deviation 0.")
S("C282","proved")
S("C283","proved")
S("C284","proved")
S("C285","partial","Everything but the mean is proved (C285_stats_partial). The mean may exceed the maximum (C285_violated: three samples of 0.1); proved is that it does so by at most as many roundings as there are samples.")
S("C286","proved")
S("C287","proved")
S("C288","proved")
S("C289","proved")
S("C290","proved")
S("C291","proved")
