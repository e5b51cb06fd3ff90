# Formal model of solarspatialtools: design

Source under study: `/repo` (jranalli/solarspatialtools, pinned commit), read as
text only. Model and proofs: Lean 4.33.0 + Mathlib, in `/verif/lean`.

## 1. Trusted base

* Lean's kernel. No axioms are added; every theorem listed in `MANIFEST.json`
  depends on at most `propext`, `Classical.choice`, `Quot.sound` (checked with
  `#print axioms`, script `tools/axioms.sh`). No `sorry`, `admit`,
  `native_decide`, `bv_decide`.
* The fidelity of the model to the Python text. Each definition under
  `lean/Verif/Model/` carries the file and lines it models and says where it
  simplifies. The code is never run here, so this link is by reading only.
* The definitions in `lean/Verif/Spec/` and in the theorem statements.

### Numerics

Numbers are modelled by exact arithmetic over ℝ (ℂ for spectra). Floating-point
rounding, overflow and signed zero are NOT modelled, and the property statements
that need it say "in exact arithmetic". What is modelled of IEEE behaviour:

* NaN as a missing value: `Option ℝ` (`none` = NaN) where only missing data can
  arise (gappy series, medians of nothing, ...);
* division by zero and its consequences: the type `XR` (`nan | pinf | ninf |
  fin x`) with numpy's rules (`x/0 = ±inf`, `0/0 = nan`, comparisons with NaN
  are false). Zero is unsigned: `x/0` takes the sign of `x` (i.e. zero is `+0.0`);
  where this matters (`spacing/delay` in QC) only `|v|` is used, for which the
  sign is irrelevant.

For the error metrics, the ramp and path-length metrics and the plane vectors
(C258-C260) there is a second model with rounding (`Model/Round.lean`,
`Model/RoundVec.lean`): every operation is followed by a rounding `fl` of which
only `|fl x - x| <= u |x|` is assumed, and sums may be taken in any order. The
theorems compare it with the exact model. Underflow and overflow stay outside.

### Exceptions, mutation, pandas

* Exceptions are values: functions that can raise return `Except PyErr α`.
* Mutation of a caller-visible object is modelled by returning the new object.
* A DataFrame/Series with an index is a list of (label, row); numpy arrays are
  lists. Type dispatch (`isinstance`, `hasattr`) becomes separate constructors
  or separate functions. dtype promotion is not modelled.

### External routines (parameters of the model)

| routine | modelled as | assumed behaviour (hypothesis of the theorems using it) |
|---|---|---|
| `pyproj.Proj` | structure `Projector` with `fwd`/`inv` per (zone, south) | none, or `inv ∘ fwd = id` for the round trips |
| `scipy linear_sum_assignment` | function returning row/col index lists | `IsLSA`: rows 0..k-1 increasing, columns distinct, total cost minimal |
| `leastsq`, `curve_fit` | a point | it is a global minimiser of the sum of squared residuals |
| `minimize_scalar`, `shgo` | a point | none, or global minimiser |
| `scipy.signal.correlate`, `fft` | defined directly from their mathematical definition | the definition itself |
| windows / detrending / segmenting in `welch`, `csd` | list of per-segment spectra | csd = mean of conj(X)·Y, psd = mean of |X|² |
| RNG | the drawn numbers are an argument | range only |
| pvlib `clearsky_index` | modelled from its documented rule | - |
| `default_rng(seed).multivariate_normal` | function of seed, call number, covariance, rows | factor of the covariance times some numbers (`MvnSpec`); for C127 these are independent standard normal (`MvnLaw`) |
| `np.interp`, `np.unique`, `np.digitize` | defined directly | the documented rule for sorted nodes |
| `GaussianMixture.score_samples` | weighted sum of normal densities | the definition itself |
| `DataFrame.interpolate`, `rolling`, `resample().ffill()` | defined directly from the pandas sources as remembered; in particular resampling an index that already has the target frequency and length only relabels it | - |
| HDF store | list of (key, table), `put` replaces, `append` appends | - |
| file system, URL fetch | state machine with crash points | writes are prefixes of the content |

Every hypothesis bundle about an external routine has an `example` exhibiting an
instance, so that it is satisfiable.

## 2. Layout

* `Verif/Num.lean`, `Verif/Py.lean`: `XR`, Python helpers (errors, slices,
  stable sort, argmax, mean ...).
* `Verif/Model/*.lean`: the model, one file per source file (or part of it).
* `Verif/Spec/*.lean`: small independent specifications.
* `Verif/Proofs/*.lean`: helper lemmas.
* `Verif/Props/*.lean`: the property theorems `Cnn_...`, each followed by an
  `example` showing its hypotheses are met by a concrete case.
* `tools/`: generator of `properties.jsonl` and `MANIFEST.json`, axiom check,
  mutation helper. `seeded/LOG.jsonl`: mutation log.

## 3. What is modelled, per property, and how it is proved

| id | modelled | proof idea |
|---|---|---|
| C01 | `_calc_zone` with Python `int` truncation over ℝ | floor/trunc case analysis |
| C02 | `latlon2utm`, `utm2latlon`, list dispatch | induction over the list |
| C03 | same, `Projector` with inverse law | unfolding + inverse law |
| C04 | `latlon2lcs`, `lcs2latlon` | algebra; counterexample with a concrete projector for explicit zones (partial) |
| C05 | `latlon2lcs` | algebra |
| C06 | `latlon2lcs` | same-zone theorem + counterexample (partial) |
| C07 | `lla2flat` | real analysis (positivity of radii), linear arithmetic |
| C08 | `rect2pol`, `pol2rect` with `arctan2 y x := Complex.arg (x+iy)` | Mathlib `Complex.arg` |
| C09 | `rotate_vector` | ring + sin²+cos²=1 |
| C10 | `unit`, `magnitude`, `project_vectors` | algebra, Cauchy–Schwarz in the plane |
| C11 | `compute_vectors` | list lemmas |
| C12 | `compute_intersection` into `XR` | linear algebra; singular case by cases on signs |
| C13, C14 | `spacetime_distances` | Euclidean norm in ℝ², index arithmetic |
| C15–C17 | `remap_positions`, `cascade_remap` on labelled tables | induction over the remap list, last-wins lookup |
| C18–C21 | `assign_positions` with LSA parameter | permutations from LSA output; optimality transfer; counterexample for C21 |
| C22–C24 | `compute_predicted_position` after the delays (delays, coherences are inputs) | averaging algebra + C12; sorting spec for the selection |
| C25 | `_get_pairs` | induction over the list |
| C26, C27 | `_pairwise_qc` per pair with `XR` statistics | case analysis |
| C28, C29 | `_validate_method_options` with dictionary as association list, returns the mutated caller dict | induction over keys; counterexample for C29 |
| C30–C34, C36 | `compute_cmv` after delays: QC, threshold, early exit, optimiser parameters, normalisation | algebra; least squares uniqueness; variance zero iff constant |
| C35 | `optimum_subset` | LSA spec, |cos| algebra |
| C37–C42 | correlation, mean removal, coefficient scaling, argmax, FFT via DFT sums | Cauchy–Schwarz; DFT orthogonality (convolution theorem); list induction |
| C43, C44 | averaged transfer function from segment spectra | Cauchy–Schwarz over ℂ |
| C45, C46 | `tf_delay`, unwrap | induction over the frequency list; minimiser of a quadratic |
| C47–C54 | delays, plants, filters | complex exponentials, DFT algebra |
| C55–C59 | error metrics, variability metrics | finite sums, Cauchy–Schwarz/Minkowski, rank counting |
| C60–C62 | resampling groups, rolling quantile | list induction, interpolation bounds |
| C63 | clear-sky index | case analysis; counterexample for DataFrames |
| C64–C70 | synthetic cloud field | convexity of interpolation, counting, finite sums |
| C71–C78 | copula | monotone partial sums; algebra; PSD of exp(-pD) by Schoenberg (Proofs/Kernel.lean); Gram factor argument; lookup through the flattened order |
| C79–C84 | file tools | state machine with crash points, induction on runs; counterexamples |
| C85, C86 | `assign_positions` | NaN branch selection; IndexError analysis |
| C87 | `compute_predicted_position` column lookup | exact difference between the two column orders (partial) |
| C88 | `compute_cmv` error paths | pair coverage + `mapM` error analysis |
| C89–C96 | `xcorr_delay`, `compute_delays` (shapes, ties, constants), `_fftcorrelate`, unbiased scalings | order of the argmax scan, Σ of the full correlation, counterexamples |
| C97–C107 | `tf_delay`, `compute_delays_tf`, `averaged_psd`, `field.compute_delays` (edge cases) | induction over the bins, Parseval through the DFT, counterexamples |
| C108–C112 | CAM filter as frequency response, Marcos filter application, passivity, time invariance | DFT algebra, Parseval, counterexamples for all odd extents |
| C113–C115 | label alignment, frame column names, gaps of the rolling quantile | finite sums over the common labels; lookup in the window rows; counterexamples |
| C116–C121 | weights at the ends, ranges, positional series, the generator end to end | inversion of the model's branches; counterexamples |
| C122–C126 | point CDF, inversion, component order, array decay, hourly seeds | branch analysis, bounds on the exponential; counterexamples |
| C127 | `downscale` with random draws | normal law of linear combinations, probability integral transform, strict interpolation |
| C128–C133 | iotools, HOPE and NRCAN converters | traces of elementary effects; a crash is a prefix; counterexamples |
| C134 | `scatter_hist` | partition of the points by bin |
| C135, C136 | `compute_cmv` on recorded series, backend xcorr | frozen pattern as specification (`Spec/CmvXcorr.lean`); delays by C40/C41/C91, flags by C26, fit by C33/C34 |
| C137-C141 | `compute_predicted_position` from the data frames (`Model/Predict.lean`) | end-to-end by C136; invariance of transfer-function angles and coherences under gains; equivariance of projections and intersections under similarities; positional matching of columns disproved by example and characterised |
| C142-C146 | the command line program of `hope_campaign.py` with `parse_file` (`Model/HopeMain.lean`): arguments, downloads, HDF files by name, answers of the user; netCDF contents, directory listing and server are parameters | case analysis over all outcomes of the steps; conversion by induction over the files (columns rearranged by label); rerun by idempotence of the downloads (C79) and of the conversion (C83) |
| C147-C153 | further kinds of arguments (`Model/Args.lean`): iterables with Python's `in`, frames in `apply_delay` and `apply_filter`, integer arrays, sites by latitude and longitude, references by row or frame, numpy's error state | induction over the list of pairs (a generator shrinks with every hit); case analysis over kinds; of the projection only the likeness of zones and the direction of easting are used |
| C154-C159 | `compute_cmv` in other coordinates, units, order, names | a relation between the statistics of corresponding pairs (`StatRel`) carried through flags, quantiles, variance minimiser and normal equations; permutations of the pair table; antisymmetry of delays with a single peak |
| C160-C164 | what `compute_cmv` reports | `Model/CmvData.lean` adds the data object; percentiles specified by sorted lists, optimality by local minima and sums of squares, `linregress` by covariances (Cauchy-Schwarz) |
| C165-C169 | the procedure of `demos/field_reassignment_demo.py` | `Model/Reassign.lean` chains the modelled functions as the demonstration does, for any number of rounds; delays are those of the true places (`ExactCase`), mix-ups are bijections (`MixedUp`); induction on the rounds, strict nearest-neighbour argument for the assignment |
| C170-C176 | the procedure of `demos/field_demo_full_process.py` | `Model/FullProcess.lean`: choice of the pairs of windows, mean over the pairs, selection by inverter (substring test), cascade, the `while` loop with its two stop conditions (fuel, shown sufficient by C170); the predictor is a parameter where the claim does not depend on it and the modelled `compute_predicted_position` otherwise; loop invariants, per-group use of C168, composition of bijections; counterexamples with two combiners evaluated through C166 and C23 |
| C177-C181 | segments of the spectral averages; CAM filter against the mean of the plant | `Model/Tf.lean` (`averagedPsd`, `averagedTf`), `Model/Filters.lean` (`getCamfilter`, `applyFilter`) | C177-C179 express the averaged result by calls of the same function on the single segments; C180/C181 by the discrete Fourier transform of circularly delayed records: the filter nodes contain the frequencies of the data, where interpolation is exact |
| C182-C185 | `demos/synthetic_clouds_demo.py` (placing sensors on a field), `get_positional_ts` into `compute_cmv` | `Model/CloudDemo.lean`: rotation, corner, extents, start cells, reading; the random field is an arbitrary function of row and column; floor/ceil arithmetic; C185 by C135 on a frozen pattern |
| C186-C189 | `demos/automate_cmv_demo.py` | `Model/AutoCmv.lean`: hours by variability score (`sort_values` as any permutation into decreasing order), table of `compute_cmv` results with `Except`, filter with the indexing of the code, choice by the modelled `optimum_subset`; concrete hour of 361 samples as example |
| C190-C194 | clear mask, edges, scalings, `get_positional_ts` | no new model except the `pixres` argument; relations between runs: the quantile of an increasing (affine, negated) image of a list, order statistics decide the mask, reflection commutes with the Sobel stencil; C191 fails for even filters and C194 for `pixres` |
| C195, C196 | `demos/field_demo_full_process_multithread.py` | `Model/Pool.lean`: transition system of `multiprocessing.Pool.imap` (chunksize 1): a worker takes, a worker finishes, the main process reads; invariant over all runs and a decreasing measure. Trusted: the protocol of `IMapIterator`, arguments and results are pickled copies, no worker dies |
| C197-C199 | `demos/cmv_demo.py`: lag map, normalisation, conversion of the options | `Model/CmvDemo.lean`: loop over pairs and lags, column assignment (last value stays), 0.95-quantiles by the modelled pandas quantile; C197 by C163/C25 and the delay of two records of one pattern; C199 by invariance of all checks except the fixed standard deviation |
| C200-C202 | inexact delays and cloud vectors in `field.py:13-171` and the reassignment rounds | no new model; the prediction of the modelled code is linear in the delays, so the miss is computed exactly (C200, C201); C202 by the assignment to the nearest place, with spacing above twice the bound |
| C203 | the complete procedure with inexact delays | no new model; C200 for every kept pair (sine above 1/sqrt 2), mean of points near a place is near it, C173 |
| C204, C205 | `compute_cmv` with inexact delays | no new model; least squares solution as a projection (C204); variance of the apparent speeds as a quadratic form of the direction (C205) |
| C206-C210 | `demos/signalproc_demo.py`: aggregate of the plant, table of metrics | `Model/SignalDemo.lean`: sum without NaN, `tau` as a float; C206, C210 by convexity over any number of sensors (resampling is linear and uses the same rows for every complete record); C207 by Markov's inequality; pvlib's clear sky and wavelet model are not modelled |
| C211, C212 | `demos/plant_digitization_example.ipynb` cell 15, `demos/field_demo_detailed.ipynb` cells 5, 9, 11 | `Model/Notebooks.lean`; counted selection and `positionFrom` of the library model; violations with explicit results |
| C213-C219 | `demos/synthetic_copula_demo.py` | no new model; C213 from C75; C214, C215: characteristic functions of linear combinations of independent normal numbers (`Proofs/CopulaJoint.lean`); C216-C219: the mean product of a bounded function of two normal scores is nondecreasing in their correlation, by splitting each score into a common and a private part (`Proofs/CopulaCov.lean`). The random generator enters through `MvnLaw` |
| C220, C221 | `signalproc.py` | no new model; `Proofs/RobustTf.lean`: unwrapping phases that are linear up to an error; `Proofs/TfEdge.lean`: the spectrum of a shifted segment is the rotated spectrum up to the samples where the two windows differ, Cauchy-Schwarz over the segments; `Model/Window.lean`: the periodic Hamming window, a single hump |
| C222 | `cmv.py`, `signalproc.py` | the delays of `compute_cmv` filled with the model of `compute_delays_tf` (`Model/CmvTf.lean`), then C221, C204 and the argument of C185 |
| C223 | `signalproc.py` | no new model; `Proofs/TfMirror.lean`: unwrapping and the least squares slope are odd |
| C224 | `signalproc.py`, `field.py` | no new model; only the frequencies of the rows change |
| C225 | `copula.py` | no new model; Gebelein's inequality for bounded functions of normal scores (`Proofs/CopulaGebelein.lean`): Cauchy-Schwarz bounds the squared covariance at correlation r by variance times covariance at r², a shift of the score by a changes a mean by O(a), iterate |
| C226 | `cloudfield.py` | draws as a random array on any probability space (`Spec/CloudLaw.lean`); a cell is a weighted sum of grid entries with the hat functions of the linear interpolation as coefficients (`Proofs/CloudLaw.lean`) |
| C227 | `cloudfield.py` | the draws of both stacks on the product space of uniform laws; reversing or transposing the grids permutes the draws and rearranges the result (`Proofs/CloudSymm.lean`: quantiles, sums, maxima, edges and smoothing of a rearranged field) |
| C228 | `signalproc.py` | the spectrum of a segment is a linear combination of its samples; detrending is an orthogonal projection, so the weights have at most the energy of the window; expectation over white noise |
| C229 | `signalproc.py` | the transfer function is affine in the output; every sample enters at most m segments, Cauchy-Schwarz over them; Markov's inequality |
| C230 | `signalproc.py` | the conditioned correlation is bilinear; Cauchy-Schwarz for each cross term; the noise term at two lags is a linear form in the noise, Markov's inequality on its square, sum over the lags |
| C231 | `cmv.py` | C230 for every pair: the margin leaves only the true lag; a weak peak gives delay 0, which is never GOOD; C33 and C34 on the exact delays; Markov's inequality on the energy of the noise |
| C232 | `signalproc.py` | C229 at every bin below the limit (union bound); a relative error r turns the phase by at most pi r/2; C220 for the resulting phases; the usable bins are at most twice the sum of their numbers |
| C233 | `optimum_subset` | the fan is one of the matchings the assignment solver competes with, the rotation range is a period of the cost; every |cos| is at most 1, so a total near n leaves no entry small; |cos| = 1 means parallel |
| C234 | `compute_predicted_position` from records | composition of the records-to-delays bound (edge effects as part of the spectrum, C222) with the delays-to-place bound of C200; the table of two clouds is the one `_compute_predicted_position` builds from the two data sets |
| C235 | `Flag` (cmv.py) | members and values of the enumeration as data, subscripting of a member, of its value and of a dictionary as python does it; violated as written, the part that holds is proved for every flag and every successful call |
| C236 | `WindspeedData.to_dict`, `compute_cmv` | object with all fields of the class, filled from the pair statistics and the extra columns (`corr_raw`, `pair_coh`) of the two backends; values tied to the correlation coefficient and the coherence of the records |
| C237 | `compute_predicted_position` from noisy records | the general records-to-delays bound (spectra of both records a delay up to a part of the power) with edge effects and two disturbances; probability by Markov's inequality on the expected power of white noise in each bin and a union over sensors and bins |
| C238 | `compute_cmv` (backend 'tf') on noisy records | the records-to-delays bound of C237 for every pair of sites, then the velocity bound of C204; probability by the expected power of white noise per bin and a union over sites and bins |
| C239 | `_stack_random_field`, `_scale_field_basic` (synthetic_clouds_internal_demo.py) | product measure on all draws, invariant under u -> 1 - u on the grids of the field; bilinear weights add up to 1; quantiles of the mirrored field; fold symmetric within one quantile distance |
| C240 | histograms of the scaled fields (synthetic_clouds_internal_demo.py) | values below, equal to and above 1 counted against the masks; three violations (densest edge cell, scaled-up cloud, smoothed clear sky), the other inclusions proved |
| C241 | `Flag.DESCS` against `compute_cmv` (cmv.py) | the texts as propositions about a pair in a separate specification; six violations for every result with the situation in question, with two-site examples; the conditions that hold from the last-failing-check characterisation |
| C242 | complete procedure (field_demo_full_process.py) from records | C203 with the delay errors of C234 and C237 in every window; union bound over windows, combiners and bins |
| C243 | `Model/Tf.lean`, `Model/Window.lean`, `Spec/PulseTf.lean` (pulses, segments, `OwnHalf`), `Props/PulseTf.lean`, `Props/PulseHamming.lean` | in every segment conj(X) Y is a positive number times one rotation, so phases are exactly linear; for the Hamming window the two weights of a pulse are 0.54 ∓ 0.46 cos and the coherence follows from P + Q − 2N ≤ 0.4478 · 0.54² W |
| C244 | `Model/CmvTf.lean`, `Props/PulseCmv.lean` | C243 for all pairs, then C33 |
| C245 | `Spec/PulsePredict.lean`, `Props/PulsePredict.lean` | C243 for all sensors, then C200 and C203 with error 0 |
| C246–C249 | `Spec/FilterSeries.lean`, `Proofs/Gain.lean`, `Props/FilterSeries.lean` | the transform of a filtered series is the transform of the series times (F(f) + conj F(-f))/2; a real series is determined by its transform |
| C250 | `Props/FlatScale.lean` | bounds of the two radii of curvature, with sqrt(1 - e^2) = 1 - f, and of pi |
| C251–C253 | `Props/InterpPhase.lean` | the unwrapped phases have steps of at most pi and are phases of the values, so the step between two neighbours is arg(b/a); C252 and C253 follow with the values at the data's frequencies |
| C254–C256 | `Props/PsdTf.lean`, `Props/TfGains.lean`, `Spec/Gains.lean` | Cauchy–Schwarz per bin; linearity of the segment spectra and the vanishing of detrended straight lines; the row at frequency 0 has phase 0 for positive records and drops out of 'multi' and 'fit'; violation by explicit three-sample records |
| C257 | `Props/DelayShift.lean` | the unwrapped phases after the delay are those before it less 2πfτ (unwrapping is determined by steps below half a turn and the first phase); then each method's formula is affine in the phases |
| C258 | `Props/Round.lean` | `Model/Round.lean`: the error metrics with every operation rounded (relative error at most u < 1) and sums in any order and bracketing (`AnyOrder`); a relation "within (1-u)^k of each other" is closed under the operations and, by induction on the sum, under `sum`; instance: rounding to 53 binary digits |
| C259 | `Props/Round.lean` | the same for ramps and path lengths; all terms are nonnegative, so no cancellation occurs after the differences |
| C260 | `Props/RoundVec.lean` | `Model/RoundVec.lean`: plane vectors with rounding; factors (1-u)^k as for C258, Cauchy-Schwarz for the projection |
| C261 | `Props/ScoreTies.lean` | false: a steady ramp has only tied ranks, which a slight curvature separates (proved for every step, length and size of change). Bound: the smallest ramp among those matched with the ramps above the maximiser has at least as many ramps not below it |
| C262 | `Props/RoundCross.lean` | every product carries a factor of at most four roundings; numerator and denominator by Cauchy-Schwarz relative to the product of the lengths, which are at most the length of the intersection point |
| C263–C264 | `Props/RoundIndex.lean` | false at the borders (53-digit rounding evaluated on the counterexamples); rounding to 53 digits shown to be monotone and exact on whole numbers, so that the bounds of a band are not crossed downwards |
| C265 | `Props/ZonePeriod.lean` | false: `min(z, 60)` and the truncation evaluated for all longitudes outside the range |
| C266 | `Props/RoundAssign.lean` | entries of the cost matrix by C260; the argument of C18 with a solver that is optimal up to a factor |
| C267 | `Props/RoundPredict.lean`, `Proofs/RoundErr.lean` | errors relative to a size for the mean of the distances; perturbation of the two equations of the intersection; C262; numbers for float64 |
| C268 | `Props/RoundCorr.lean` | removal of the mean as a disturbance of bounded size (as in C230), errors of the sums by Cauchy-Schwarz, `argmax` of values with errors |
| C269 | `Props/RoundFlat.lean` | absolute error bounds followed step by step with numbers for 2^-53; angle functions with a given accuracy |
| C270 | `Props/RoundSegments.lean` | `int` of a rounded product as in C264; a spike that only one choice of segments sees for the violation |
| C271 | `Props/RoundPlant.lean` | rounded ends of sites against exact samples; a second instance of the rounding, halves to even, for the violations, which depend on ties |
| C272 | `Props/RoundPolar.lean` | error bounds of C269 for products, `Complex.norm_mul_cos_arg` |
| C273 | `Props/RoundScore.lean` | matching of ramps of C261 applied to exact and rounded magnitudes, in both directions; violation computed with IEEE rounding |
| C274 | `Props/RoundSpacetime.lean` | entries of C13 with rounding; symmetry from odd rounding, `even53_neg`; error bounds of C269 |
| C275 | `Props/RoundClearsky.lean` | cases of the quotient against 0 and the maximum; monotone rounding |
| C276 | `Props/RoundPercent.lean` | error calculus `Err` for scaled samples, their differences and sums in any order |
| C277 | `Props/RoundLcs.lean` | differences and sums with rounding; the projection is a parameter that need not be exact |
| C278 | `Props/RoundDelay.lean` | rounded phase factor near the unit circle; `norm_exp_I_mul_ofReal_sub_one_le` for the phase error |
| C279 | `Props/RoundMarcos.lean` | Smith's complex division followed through both branches with `Near`; one single-precision rounding at the end |
| C280 | `Props/RoundCmv.lean`, `Proofs/RoundEven.lean` | signed `Near` for the components; `fmod` exact; monotone rounding for the range; IEEE rounding at 2π |
| C281 | `Props/RoundCoeff.lean` | mean removed twice as two disturbances of bounded size, `np.std` by `Near`, C268 for the sums; three samples of 0.1 worked out for the violation |
| C282 | `Props/RoundQc.lean` | `np.std` and the mean by C281 and `Near`; each test of `_pairwise_qc` shown equivalent to the exact one outside a margin |
| C283 | `Props/RoundQuantile.lean` | position, order statistics and numpy interpolation (two branches) modelled; range by monotone rounding, error by a Lipschitz bound of the interpolation in the position |
| C284 | `Props/RoundWeights.lean` | relative errors (`Near`) of squares, means, sum and quotients by induction over the modes |
| C285 | `Props/RoundTsStats.lean` | percentile by the range lemma of C283, mean by `Near`, clear fraction by monotone rounding; a counterexample with IEEE rounding for the mean |
| C286 | `Props/RoundMask.lean` | the rounded quantile lies between the two order statistics next to its rounded position (lemma of C283), so the count is one of two numbers; rounding bounds for both sides of `np.isclose` |
| C287 | `Props/RoundLave.lean` | monotone rounding that keeps integers: every step is a monotone map, the extremes are hit exactly |
| C288 | `Props/RoundBasic.lean` | the same for the alternate scaling; upper bounds of cloudy cells by relative rounding errors |
| C289 | `Props/RoundStack.lean` | sum by induction over the scales with `Near`; normalization by monotone rounding, x/x = 1 |
| C290 | `Props/RoundEdges.lean` | error of the running sum by induction along the line, for both axes at most 7e-7; the exact filter is 0 or at least 1/s^2. The filter of scipy is modelled as a running sum from its source as known; it is part of the trusted base |
| C291 | `Props/RoundCloudfield.lean` | composition of C286 to C290 along the generator |

If the code violates a property, the model keeps the behaviour of the code; the
negation is proved with a concrete witness (`Cnn_violated...`) and the part that
does hold is proved as `..._partial`.
