# Verification design: quantfinlib

A Lean 4 model of the Python package in `/repo/quantfinlib`, with theorems proved for all inputs.

## Trusted base

* Lean's kernel.
* Axioms: every theorem depends on a subset of `propext`, `Classical.choice`, `Quot.sound`. No axioms are added, and
  there is no `sorry`, `admit`, `native_decide` or `bv_decide`. (`#print axioms` on each theorem of `MANIFEST.json`
  shows this.)
* The correspondence between the Python text and the Lean model. It is checked by reading: each definition cites file
  and lines.
* The behaviour of numpy, pandas, scipy and sklearn primitives, as written down in commented definitions
  (`Prelude.lean`, `Model/NdArray.lean`, `Model/Series.lean`, `Model/XF.lean`, and locally in the model files). The alignment
  of different indexes (`Model/Labelled.lean`: sorted union in arithmetic and in a frame of a dict of series, `concat` sorting dates
  only) is that of pandas 2.2.
* Specifications of external numerical routines. These routines are not computed; they are universally quantified
  functions, constrained only by a named specification: `np.linalg.eigh`, `svd`, `argsort` (`Spec/Cov.lean`; on floats `Spec/CovX.lean`: with special values they raise or return `nan`),
  `np.linalg.cholesky` (`CholFactor`; on a matrix with NaN it is taken to raise `LinAlgError`, as LAPACK does; since C131 also written
  out as the recurrence with rounding in `Model/CholR`, which meets `CholFactor` and `CholTotal` when nothing is rounded), `scipy.linalg.logm` (`MatDiv.LogmSpec`), `t.cdf` (`MicroTrade.Cdf`), `DataFrame.corr` (`PdCorrSpec`; since C101 also
  modelled after pandas 2.2 in `Model/PandasCorr`, which meets it: `pandas_corr_spec`),
  `pd.infer_freq`, `pd.date_range` (`SimBase.Pandas`; for C128 `infer_freq` is transcribed from pandas 2.2 in `Model/InferFreq`, for
  at least three timestamps without time zone and without `NaT`, and for C129 `date_range` with the codes `D`, `B`, `ME`, `MS` in
  `Model/DateRange`), random streams (no constraint), scipy's `linkage`
  (`IsLinkage`, `LinkageSpec`; `cut_tree` is modelled, from scipy 1.13). For each specification that is not trivially satisfiable a
  theorem shows that a function meeting it exists (`eigh_exists`, `svd_exists`, `argsort_exists`, `logm_exists`,
  `cdf_exists`, `chol_exists`, `eighX_exists`, `svdX_exists`).

## Modelling decisions

* Python exceptions are values: `Py α = Except PyErr α`, with `PyErr` listing the exception classes that occur.
  Messages are left out.
* Integers are `Int`/`Nat` (exact as in Python; int64 overflow in numpy is not modelled).
* C126 idealises the numbers that numpy draws for a seed: uniform, independent in pairs (`UniformDraws`). All other theorems on
  the gap statistic hold for every sequence of draws.
* Floating point is idealised: `XF = nan | pinf | ninf | fin r` with real `r`, IEEE rules for the special values, no
  rounding, no overflow, no signed zero (a zero divisor counts as `+0.0`). Modules in which special values cannot
  arise, or in which a hypothesis excludes them, use `ℝ` directly (simulation, covariance). For the simulation `SimX`
  repeats samplers and fits on `XF`, `SimLikX` likelihoods and the OU fit of several columns, and C89/C90/C97 prove that
  both models agree on ordinary numbers. About `np.linalg.lstsq` on special values `Lstsq` assumes: LinAlgError or `nan`
  for slope and intercept. About scipy's `multivariate_normal`: a covariance matrix with special values is refused.
* Rounding is modelled for correlations, distances, sums, paths, RSI, bands, fits and likelihoods without correlation (C99, C100, C102, C105–C111, C113, C131–C135): the functions of
  `Model/RoundFun`, `RoundSum`, `HistR`, `RollR`, `IndR`, `MicroR`, `CusumR`, `SimR`, `FitR`, `OUFitR`, `LikR`, `CholR` and `EntR` round after every operation with a parameter `fl`. Theorems hold for every `fl`
  meeting `Rounding` (`Spec/Round`) or for `b64` (`Model/Round`: nearest, ties to even, 53 bits, unbounded exponent, so no
  overflow, underflow or signed zero); `b64_rounding` proves that `b64` meets `Rounding`. With `fl = id` they are the
  exact models (`round_id_agrees`, `round_sum_id_agrees`). The square root, `exp` and `log` are taken as correctly rounded.
  Orders of summation are binary trees (`SumTree`), scalar products trees with or without fused multiply-add (`DotTree`); pandas' rolling sums with their compensations are in `RollR`.
* Generators are state machines (`init`, `step`), so that histories of interleaved generators can be quantified over.
* Objects whose attributes change are explicit states (`WFObj`, `FitState`, logger), and properties about them are
  proved for all histories of calls.
* Random draws are a sequence given to the sampler. Most theorems hold for every sequence. The theorems about laws
  (C77–C82, C87, C88, C93) assume a probability space on which the draws are independent standard normal (`Draws`, `Spec/SimLaw.lean`);
  `draws_exist` shows that there is one. The theorems about long windows and long samples (C83–C86, C119, C120) assume independent identically
  distributed bars, trades or rows (`IID`, `Spec/LongSample.lean`); `exists_roll`, `exists_bars`, `exists_flow`, `exists_value`, `trio_observations`, `cube_varying`
  show that there are such.
* Dynamically typed arguments are inductive types with one constructor per case the code distinguishes.
* Where the code violates the property a user would expect, the negation is proved with a witness, and the property
  that does hold is proved beside it. These cases are listed under "Findings".

## Layout

* `Verif/Prelude.lean`: exceptions, numpy list primitives. `Verif/Model/*.lean`: the code, function by function.
* `Verif/Spec/*.lean`: independent specifications. `Verif/Lemmas/*.lean`: helper lemmas.
* `Verif/Props/*.lean`: the property theorems, each with a concrete non-trivial instance (an `example`) beside it.
* `tools/manifest.py`, `tools/mutate.py`: bookkeeping and mutation testing; `seeded/LOG.jsonl`: the mutation log.

## What is modelled

| Source | Model | Properties | Modelled | Not modelled |
|---|---|---|---|---|
| `train_test_split/_base.py` | `Model/SplitBase` | C01–C16, C116 | constructor checks, `split` validation, `_purge`, `_embargo`, delta validation | docstrings, messages |
| `train_test_split/kfoldpe.py` | `Model/KFold` | C01–C09 | everything | invalid `freq` strings |
| `train_test_split/walk_forward.py` | `Model/WalkForward`, `Model/WalkFloat` | C10–C16, C112, C121 | everything, as a `next` step on a shared object; float windows without `freq` | other window arguments (infinite, nan, strings), the warning of `get_n_splits` |
| `train_test_split/_dtypes.py` | `Util` | C64 | the annotations it builds; they are not enforced anywhere in the package | |
| `train_test_split/combinatorial_cv.py` | — | — | file contains only a docstring | |
| `sim/_base.py` | `Model/SimBase`, `SimCore`, `SimCor`, `InferFreq`, `DateRange` | C17, C18, C25–C29, C68, C128, C129 | pre- and postprocessing, labels, `fit`, `nll`, `aic`, `bic`, `path_sample`, correlated noise, upper-triangle matrices | arrays of 3 or more dimensions, nested lists, bools, time zones, NaT |
| `sim/_bm.py`, `_gbm.py`, `_ou.py` | `SimCore`, `SimInit`, `SimFit`, `SimLik`, `SimX`, `SimLikX`, `SimR`, `FitR`, `OUFitR`, `CholR`, `LikR` | C17–C24, C65–C67, C73–C81, C88–C90, C93, C97, C100, C110, C111, C131–C135 | constructors, samplers, fits, likelihood with and without correlation, parameter count | `nan` in `cor`, scipy's rank tolerance, an asymmetric `cor` beyond its lower triangle |
| `sim/_quasi_random.py` | `QuasiRandom` | C30 | everything, indicator as a parameter | exceptions raised by the indicator |
| `_datatypes/timeseries.py` | `Timeseries` | C31–C33, C130 | frequency inference and durations | NaT, time zones, an index with `freq` set |
| `math/cov.py` | `Cov`, `CovX`, `RoundFun` | C34–C39, C87, C98, C99, C123–C125, C127 | everything | negative `num_timesteps` |
| `distance/correlation.py`, `distance_matrix.py` | `CorrDist`, `Info`, `RoundFun`, `PandasCorr` | C40–C42, C47, C99, C101, C102 | everything, with `DataFrame.corr` | labels of data frames, infinite entries with Spearman's correlation |
| `distance/information.py` | `Info`, `HistR`, `EntR` | C43–C46, C96, C105, C113 | everything; bin edges exact and (`HistR`) rounded as in numpy; entropies exact and (`EntR`) rounded | numpy's refusal of equal edges |
| `distance/matrix_divergence.py` | `MatDiv` | C48, C114 | everything | rounding of eigenvalues, stacks of matrices (three or more dimensions) |
| `feature/indicators/*` | `Series`, `Indicators`, `Labelled`, `RollR`, `IndR` | C49–C54, C94, C95, C100, C104, C106, C107 | everything; `Labelled` has the functions of several series with their labels | names of series, repeated labels in series with different indexes, `window=0`, float windows |
| `feature/micro_structure/*` | `Micro`, `Labelled`, `RollR`, `MicroR` | C55–C59, C69, C83–C86, C94, C95, C108, C115 | everything | as for indicators; EDGE without rounding |
| `feature/structural_breaks/cusumtest.py` | `Cusum`, `CusumR` | C60, C82, C109 | everything | arrays of other dimensions |
| `clustering/*` | `Clustering`, `CutTree`, `Linkage` | C61, C62, C70, C71, C91, C92, C103, C117–C120, C122, C126 | everything; scipy's `cut_tree` is written out, its `linkage` is a relation (merges of closest clusters, any choice among ties and any order of children) | condensed (one-dimensional) distances, `dist` of other types, sklearn's validation of integer tables |
| `util/*`, `datasets/*` | `Util` | C63, C64, C72 | everything; reading of CSV files as a parameter | JSON schemas and pydantic's union handling, frames with repeated column names in the annotation, text of messages |

## Findings (negations that are proved)

Train/test splitting
* `DatetimeIndex` groups can produce an empty test set (`kfold_dtindex_empty_test`).
* Series groups raise `KeyError` as soon as an even border falls inside a label (`kfold_series_keyError`), and Series
  groups always raise in `WalkForward` (`walk_series_always_raises`).
* The purge removes training labels after the test set and the embargo those before it. A target that looks `h` labels
  ahead leaks from the training samples *before* the test set, so `n_purge` alone, which the usual meaning of the word
  suggests, never separates it (`kfold_purge_alone`); both lengths must reach look-back plus look-ahead (C116).
* `Timedelta` purge/embargo are accepted by the constructor of `TimeAwareKFold` but no split can be drawn
  (`kfold_timedelta_never_yields`).
* `WalkForward` accepts fractional windows. If `first label + train_window - 1` is not a label, train and test set share samples
  in every split, whatever the embargo (`between_leaks`, `gap_leaks`): `train_window=0.57 * 100` on 100 rows puts sample 56 in both
  sets (`percentage_leak`), since the product is less than 57 in floats. A float test window can leak by rounding
  with an integer training window (`rounding_leak`).
* `WalkForward` on a calendar with gaps puts samples in train and test at once (`walk_business_day_leak`) and lets test
  sets overlap (`walk_gap_tests_overlap`); the defaults `train_window=0` and `test_window=0` give overlapping sets and
  an endless generator; `get_n_splits` counts over all generators (`walk_second_run_doubles`).

Simulation
* GBM fit and GBM sampling use different drifts (`gbm_fit_biased`, `gbm_nll_prefers_other_drift`); on long samples the
  fitted drift converges to `drift - vol^2 / 2` (`gbm_fit_inconsistent`).
* Calibration on a sample with at least two columns and not more steps than columns almost surely raises `LinAlgError`
  (`bm_fit_sure`, `thousand_paths`).
* A fitted OU model cannot sample (`ou_fit_then_sample_fails`), keeps only the last column, and a rate vector fails for
  several paths.
* No starting value is rejected: a geometric path started at zero stays zero and one started at a negative number is NaN
  throughout (`gbm_special_start`); an OU rate of zero gives NaN instead of a Brownian motion (`ou_zero_rate`).
* A missing value in one column of calibration data passes silently and makes the volatility NaN
  (`bm_fit_missing_one`), and all later samples with it (`bm_fit_missing_sample`); in several columns it raises an
  unrelated error (`bm_fit_missing_many`). All-negative prices are calibrated like positive ones (`gbm_fit_negate`). An OU
  fit to a straight line returns an infinite mean (`ou_fit_linear`).
* A missing value in the data never raises in `nll`, `aic`, `bic` (`bm_nll_never_raises` and others): the scores are NaN and no
  model ranks before another (`missing_no_ranking`); a price of zero gives `+inf` (`gbm_nll_special`); an OU rate of zero gives
  NaN for all data (`ou_nll_zero_rate`). An OU fit of several columns with a missing value raises `LinAlgError`
  (`ou_fit_missing_many`), of one column it may return NaN parameters (`ou_fit_missing_one`).
* `nll`/`aic`/`bic` overwrite the state later used by `path_sample`; failed fits leave a mixed state.
* AIC and BIC multiply the likelihood by the number of samples once more (`aic_ranking_wrong`).
* `include_x0=False` on a Series fails; labels without dates give `UnboundLocalError`.
* The normalisation constant of the quasi-random signal looks ahead (`quasi_scale_looks_ahead`).
* Column names can collide (`column_names_collision`).
* `num_parameters_` does not depend on the number of variates (`num_parameters_constant`); a single data column is used
  for every variate (`nll_repeats_column`); one common volatility with correlations can be sampled but has no likelihood
  (`nll_common_vol_raises`); an OU model fitted to several columns has none either (`ou_fit_then_nll_raises`).
* A negative volatility gives a likelihood with a correlation matrix and NaN without; a zero volatility gives
  `LinAlgError` with a matrix and NaN without (`nll_outcome`).
* The volatilities of a fit are never the maximum likelihood ones (`bm_fit_ml`: divisor `n - 1`), so `nll` after a fit is
  not the minimum; the correction `sqrt((n-1)/n)` makes it one.
  The variance is unbiased but the volatility itself is too small on average (`FitLaw.biased`), and five years of daily
  data do not identify a drift of 5 % (`five_years`).
* The diagonal of `cor` is not checked: it scales the variance of simulated paths, and geometric paths then grow at
  `drift + (cor_jj - 1) vol^2 / 2` (`bm_law_of_init`, `gbm_mean_any`). Only the lower triangle of `cor` is read.
* Correlated OU variates with different rates have too large a covariance, and their law at a fixed time depends on the
  step size (`ou_cross_too_large`, `ou_not_refine`). OU sampling ignores the sign of `vol`, Brownian sampling does not.
* OU calibration with different rates converges to wrong volatilities (`ou_fit_inconsistent`); rates with
  `exp(-mrr dt) < 1e-8` are reported as `8 log 10 / dt` and the mean as `mean / (1 - 1e-8)` (`ou_fit_clamped`).
* The likelihood of a simulated geometric path is that of shifted draws unless `dt = 1` (`gbm_nll_of_sample`).

Covariance
* A missing covariance above the diagonal does not affect denoising (`cov_denoise_lower`), one below it makes every denoised
  covariance `nan` (`cov_denoise_missing`), and an infinite one counts as a perfect correlation (`cov_denoise_infinite`).
* A missing eigenvalue gives the fitted variance 0, not an error (`mp_fit_missing`).
* With `cov_reg=0` a constant asset has `nan` on the diagonal of the correlation matrix (`cor_zero_reg_psd`).
* `cov_reg` floors the variance, not the standard deviation (`cov_floor_effect`).
* With positive probability the diagonal of a random correlation matrix is below 1 (`random_cor_small_diag`).
* A matrix rebuilt from eigenvalues need not be positive semidefinite (`eig_to_cor_not_psd`).
* With fewer time steps than assets the eigenvalue sum is lost (`denoise_trace_lost`) and the fit looks at the wrong
  slice (`fit_ignores_spectrum`).
* The docstring block example is not a correlation matrix (`doc_block_invalid`); integer arrays truncate the
  Marchenko-Pastur density (`mp_pdf_int_truncates`); `k=0` means "all" in `_cor_to_eig`.

Distances
* With missing values the correlation distances of one matrix violate the triangle inequality (`missing_breaks_triangle`): pandas
  compares every two columns on other rows. Clustering then separates columns that agree wherever they can be compared
  (`missing_separates`).
* Accepted correlation arrays may give asymmetric distances (`array_dist_asymmetric`); data frames are neither checked
  nor given a zero diagonal.
* `var_info` with default bins violates the triangle inequality (`vi_auto_triangle_fails`).
* `kl_divergence_xy` can be negative and does not see shifts or scales (`kl_negative`, `kl_affine_zero`).
* With a fixed number of bins the range of the histogram follows the extremes of the sample. For a variable with a lower
  but no upper bound (lognormal prices, volumes, absolute returns) the first bin takes everything in the long run: mutual
  information tends to zero whatever the dependence (`mi_skewed`, `lognormal_skewed` for a series and itself) and so does
  variation of information (`vi_skewed`). Two bins do not see that one variable is a function of the other (`mi_blind`).
* Automatic bins fail for `x` and `-x` and for constant samples (`auto_bins`); the diagonal of the mutual information
  matrix is 1 even without normalisation (`mi_diagonal_wrong`).
* Neither matrix divergence is symmetric or satisfies the triangle inequality (`divergence_no_metric`).
* The positive-definite check ignores symmetry and the log-det divergence can be `-c^2` (`logDet_negative`).
* A 1 x 1 second matrix is broadcast by `von_neuman_divergence`: a number is returned and can be negative
  (`vonNeuman_broadcast`, `vonNeuman_negative`).

Features
* `rolling_mom` with a negative window looks ahead; `macd_signal` is MACD minus its signal line; RSI ignores moves
  across missing prices; Keltner channels invert for `high < low`; rolling deviation with window 1 is all NaN.
* All volatility estimators return variances; Garman-Klass can be negative; Yang-Zhang uses the close against the
  previous open (`yangZhang_flat_bars`) and fails for window 1.
* Corwin-Schultz has a wrong sign in alpha, so that the clamp is dead code (`clamp_dead`, `corwinSchultz_constant`).
* Corwin-Schultz and Becker-Parkinson do not converge with a growing window, since gamma is not averaged (`no_limit`).
* In the limit of long windows close-to-close gives the variance of the gross return (`closeClose_normal`), and
  Yang-Zhang is too high by 0.34/2.34 of the close-to-close variance (`yangZhang_excess`).
* Roll's measure tends to the spread for balanced uninformed trades only (`roll_directions`, `roll_informed`); Kyle's
  lambda is too large in the presence of noise (`kyle_bias`); VPIN of bulk-classified volume tends to one half whatever
  the market does, if the distribution function fits the increments (`vpin_matched`).
* Roll's measure drops the sign of the autocovariance; EDGE is NaN for windows 1 and 2.
* EDGE in long windows (C115): it is the spread if the directions of the trades at the open and the close are fair and the
  mid-range of a bar is uncorrelated with the overnight change before it. If overnight changes continue during the day it is
  too small, if they revert it is too large. The correction for opens and closes at the extremes overshoots when these say
  nothing about the spread: on bars that move straight from the open to the close the result is 15 percent too large
  (`edge_straight`).
* VPIN of bulk-classified volume does not depend on the volumes; one bar without volume blanks the window; Kyle and
  Hasbrouck are NaN for windows with an unchanged price; Amihud pads missing prices.
* Geometric Brownian motion with 64-bit numbers does not start at `x0`: the first row is `exp(log(x0))`, for the default 100 it is
  100 + 3·2^-46 (`gbm_start_moves`, `gbm_default_start`).
* OU with 64-bit numbers and a slow mean reversion (`2·r·dt ≤ 2^-54`): `1 - exp(-2·r·dt)` is 0, so the scale is 0 and every path stays
  at its start whatever the volatility (`ou_frozen`); `np.expm1` would avoid it.
* Brownian fits with 64-bit numbers: the check `np.any(self.vol == 0)` misses a straight line in steps of the float 0.1. The computed
  mean of the increments is not their common value, so `vol` is positive (rounding error) and the fit succeeds with a zero correlation
  instead of raising `ValueError` (`bm_fit_trend_evades`); lines on a binary grid are recognised (`bm_fit_line_grid`).
* Information measures with 64-bit numbers leave their ranges: the normalised mutual information of a constant sample and another can be
  `+inf` instead of `nan` (`mi_const_inf`), the variation of information of a sample and itself negative (`vi_self_negative`), its
  normalised mutual information above 1 (`mi_self_above_one`).
* CUSUM with 64-bit numbers: two neighbouring prices near 2^52 have the same rounded logarithm; a rise from one to the other,
  after any number of equal prices, gives NaN where the exact test rejects (`cusum_blind`).
* CUSUM: docstring and code differ; nothing can be rejected at `t <= 4`; after five or more equal prices every rise is
  flagged; constant prices give NaN. Without a trend, and even with a falling one, monitoring rejects infinitely often
  almost surely (`false_alarms`); the departures are never standard normal (`departure_not_normal`).

* Labels: `estimate_buy_volume` multiplies prices and volumes by position, so indexes shifted by one day go unnoticed and
  use the price of the next day (`buyVolume_lookahead`). In EDGE a repeated label gives an early bar the estimate of a
  later window (`edge_lookahead`). Without dates the average true range puts labels missing in high and low behind later
  ones (`atr_lookahead`). Kyle's lambda compares a price after a gap with the last quoted one (`kyle_not_extends`), and
  a label quoted by one series only blanks `w` values (`kyle_blanks` and others).

Clustering
* Ward's method, the default of `HC`, weighs sizes: on points whose groups are separated (distances at most 1 inside, at
  least 1.2 between the groups) it can split a group of four and join two single points (`ward_size_matters`); the other
  linkages find every separated grouping (C117).
* The dispersion of the gap statistic divides every cluster by the same number, so cluster sizes do not matter
  (`gap_formula`); the selected number is never 1, never `max_clust`, never above `n - 2` (`gap_result_few`), and three
  points always raise (`gap_three_points`). Equidistant points have a negative gap yet 2 clusters can be selected.
* Groups of identical points (duplicated or perfectly correlated series) are never found by the gap search: it returns at most
  `K - 2` of `K` groups or raises IndexError, and the latter has a probability near one for large groups (`hc_gap_identical`,
  `hc_gap_identical_error`).
* Consecutive seeds share all but one of their reference sets (`gap_seed_overlap`); no seed is seed 0 (`gap_none_seed`).
* The silhouette selection raises when `max_clust >= n`, which the default 20 does for small data (`silh_few`); equal
  silhouettes give NaN or infinity, and NaN wins the argmax (`select_first_nan`, `select_equidistant`).
* The silhouette rule uses mean/deviation, which does not see the scale of the silhouettes: when equal groups form equal
  families, it never returns the number of groups, even where the mean silhouette prefers them (`never_groups`,
  `mean_not_tstat`, `hc_never_groups`).
* Denoising shrinks true correlations even with the right number of factors: a single pair among `n` assets keeps only
  `n / (2 (n - 1))` of its correlation, and denoising repeatedly removes it (`denoise_pair`, `denoise_pair_vanishes`). More data do not help (`cov_denoise_pair`).
* Denoising jumps where the number of factors cuts through equal eigenvalues (`denoise_jumps`).
* The grid on which the noise variance is fitted has a fixed step. For a fixed number of assets and long enough samples no eigenvalue lies in any support on
  it; the fit then returns 0.01 and every eigenvalue above that counts as a factor, even for uncorrelated assets (`noise_all_factors`).
* The fit gives eigenvalues outside the noise support the likelihood `1 / max`, which a density of at most `√q / (π x)` does not exceed for
  eigenvalues within a factor `π / √q`. Matrices near the identity are therefore taken for `n` factors (`small_unchanged`), and with
  `n - 1` observations of `n` assets, where the fit sees the greatest eigenvalue alone, nothing is ever denoised (`one_short`).
* A fit on dated data without `dt` recognises only consecutive days, Monday-to-Friday calendars and month starts or ends. Every other
  regular calendar (weekly, quarterly, yearly, hourly, newest first) raises `ValueError` (`weekly_raises`, `equal_steps_raise`,
  `quarterly_raises`); every
  calendar without a pattern is fitted as daily data with `dt = 1/252`: unsorted dates, ticks, business days with a holiday, weekly data with
  a missing week (`unsorted_default`, `ticks_default`, `gaps_default`, `weekly_gap`). After the latter no path can be sampled unless
  `label_freq` is given (`no_pattern_no_sample`).
* A forecast of business days that ends before the weekend carries dates that read as daily, so a model fitted on it takes 1/365 for
  1/252 (`short_week`). A `label_start` off the calendar (a Saturday, a day in mid-month) is silently moved to a later date (`start_moved`).
* `time_series_freq` reports daily data with three or more isolated missing days (up to a tenth) as business days (`daily_missing`). On
  business days with isolated holidays it answers `B` up to one holiday in eleven days, where a fit finds no frequency and the fitted model
  cannot be sampled without `label_freq` (`holidays_fit`).
* With `linkage_method="centroid"` or `"median"`, both documented, `get_clusters(k)` can return fewer than `k` clusters:
  three equidistant points give one cluster for `k = 2`, and the silhouette rule then raises ValueError
  (`centroid_one_cluster`, `centroid_silhouette_error`). The distances of these methods can decrease and `cut_tree` sorts
  the nodes by distance. With the other five methods the number is right (`hc_clusters`).
* When merges have equal distances the clusters depend on the order of the children in the linkage matrix
  (`order_matters`), so on `optimal_ordering`.
* The absolute angular distances of a correlation matrix need not be distances of points in any Euclidean space, which
  Ward's method supposes (`abs_angular_no_points`); the angular and squared angular ones are (`angular_points`).
* The silhouette rule with the default `max_clust=20` raises ValueError for 20 points or fewer (`hc_silhouette_default`).
* `HC` keeps its linkage after `dist` or `linkage_method` is reassigned (`stale_after_assignment`); some correlation
  matrices are accepted although every use raises (`accepted_but_unusable`).

Utilities
* Importing the distance module after `configure_logger` sets the level back (`import_resets`); `NOTSET` asks for
  everything but leaves the decision to the root logger (`notset_silent`); a file that cannot be opened loses the old
  handlers (`configure_bad_file`).
* A name in a decorator that is no parameter is silent (`unknown_name`); frames without rows are accepted
  (`no_rows_accepted`); the wildcard inside a frame shape rejects everything (`frame_wildcard_rejects`); `dtype` is
  ignored beside `columns` (`frame_dtype_ignored`); the annotation for `DatetimeIndex` groups accepts series only
  (`series_accepts`).
* The treasury data keep the index name `Date` (`treasury_header`); an absolute path replaces the project root
  (`root_absolute`).

Frequency inference
* Two weeks of business days are classified as daily although the docstring says business (`doc_business_is_daily`);
  four month ends beginning with a quarter end are classified as quarterly (`march_to_june_is_quarterly`).

Rounding
* A covariance matrix with the variance 2 gets a correlation matrix with 0.9999999999999998 on the diagonal
  (`cor_round_two`), which every distance function rejects with AssertionError, since it compares with 1 exactly
  (`cor_round_rejected`; `cor_round_diag_iff` says for which variances).
* A column of two neighbouring floats has the correlation `nan` or 1, depending on the order of the rows (`pearson_round_order`).
* The mean of three equal prices 0.1 is not 0.1, in any order of addition (`constant_mean_off`); their standard deviation
  is positive (`constant_std_positive`), so checks for a zero deviation do not see a constant series. (This is about numpy's
  functions; rolling means and deviations of pandas are exact on constant windows, `mean_sign`, `std_shape`.)
* Values that have left a rolling window leave errors behind: after a wrong price of `2^27` the rolling deviation of 1, 1, 2 is 0
  (`bad_tick_std`), after `2^120` and `2^60` the rolling mean of 1, 2, 3 is 1 (`large_mean`).
* The upper Donchian band is computed as middle plus half the width, so that the last price can lie above it: for the prices
  `2^53 - 2` and `2^53 - 1` the band is `2^53 - 2` (`donchian_outside`).
* `get_close_close_volatility` can be negative: closes 1, 2^27, 2^27, 2^27, 2^28 with window 3 give about -0.67 at the last
  position, where the ratios are 1, 1, 2 (`negative_volatility`). For the same reason a rolling sum of two squares, as inside
  `_get_beta`, can be negative (`negative_sum`).
* A fit to two proportional columns, which raises `LinAlgError` in exact arithmetic, can succeed with the correlation `1 - 2^-53`
  (`bm_fit_proportional`).
* A path at `2^53` with steps in `[0, 1)` never moves (`path_round_stuck`).
* Adding 64 to the whole numbers 0, 28, 29, 58 moves one of them into another of 14 bins, so mutual and variation of
  information are not invariant under shifts (`shift_changes_bins`).

## Not modelled anywhere

* Floating-point rounding outside C99, C100, C102 and C105–C111, C113, C131–C135, overflow and underflow, int64 overflow, performance, log text, plotting, contents of the bundled data files.
* Statistical quality of numpy's generator (claims hold for every draw, or for independent standard normal draws).
