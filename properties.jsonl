{"id": "C01", "title": "K-fold test sets partition the samples", "statement": "When TimeAwareKFold.split(X, groups=g) with look_forward=False yields all its splits without raising, every sample index 0..len(X)-1 occurs in exactly one yielded test set, each test set is a run of consecutive indices (non-empty for ndarray groups), and the test sets come out in increasing order. With look_forward=True the yielded test sets are exactly those of folds 2..n_folds. Test set f holds exactly the samples whose label lies after the label at the end of even section f-1 and not after the label at the end of even section f. Exception, proved by a witness: with DatetimeIndex groups a test set can be empty.", "quantifier": "every sample count, fold count >= 2, purge, embargo and every sorted group array of any accepted type", "why_tests_cant": "the partition must survive every pattern of repeated groups at fold borders; tests try a handful of group layouts", "anchors": ["quantfinlib/train_test_split/kfoldpe.py: TimeAwareKFold.split", "quantfinlib/train_test_split/kfoldpe.py: _modify_fold_bounds"]}
{"id": "C02", "title": "No group is shared by train and test, or by two test folds", "statement": "In every split yielded by TimeAwareKFold, no group label occurs both in the training set and in the test set, and no group label occurs in the test sets of two different splits.", "quantifier": "every sorted group array and every configuration; every yielded split", "why_tests_cant": "leakage appears only for particular alignments of repeated labels with fold borders", "anchors": ["quantfinlib/train_test_split/kfoldpe.py: _modify_fold_bounds", "quantfinlib/train_test_split/kfoldpe.py: _get_train_index_per_split"]}
{"id": "C03", "title": "K-fold training set is exactly the purged and embargoed complement", "statement": "For each yielded (train, test) of TimeAwareKFold, index i is in train iff i is a sample index not in test, group(i) is not in (max test group, max test group + n_purge], group(i) is not in [min test group - n_embargo, min test group), and, if look_forward, group(i) <= the first test group. The training set is strictly increasing and non-empty.", "quantifier": "every group array, fold count, purge, embargo, look_forward flag, every yielded split, every index", "why_tests_cant": "an iff over all indices for all group arrays cannot be enumerated", "anchors": ["quantfinlib/train_test_split/_base.py: _purge", "quantfinlib/train_test_split/_base.py: _embargo", "quantfinlib/train_test_split/kfoldpe.py: _get_train_index_per_split"]}
{"id": "C04", "title": "look_forward never trains on the future", "statement": "With look_forward=True every training sample of a split has a group strictly smaller than the smallest test group minus n_embargo, and its index precedes every test index.", "quantifier": "every group array and configuration; every yielded split", "why_tests_cant": "a single counterexample among all group layouts would be a look-ahead bias", "anchors": ["quantfinlib/train_test_split/kfoldpe.py: _get_train_index_per_split", "quantfinlib/train_test_split/_base.py: _embargo"]}
{"id": "C05", "title": "Number of K-fold splits equals get_n_splits", "statement": "A TimeAwareKFold.split generator that is exhausted without raising yields exactly get_n_splits() pairs: n_folds, or n_folds-1 with look_forward.", "quantifier": "every configuration and input on which the generator finishes", "why_tests_cant": "must hold for all inputs; the count is produced by a loop over modified folds", "anchors": ["quantfinlib/train_test_split/kfoldpe.py: TimeAwareKFold.get_n_splits", "quantfinlib/train_test_split/kfoldpe.py: TimeAwareKFold.split"]}
{"id": "C06", "title": "K-fold without groups never fails on the fold-border repair", "statement": "With groups=None (or strictly increasing integer groups) the fold borders are those of an even division: fold sizes are floor(n/k) or floor(n/k)+1, the larger ones first, and the only possible error after validation is that purging/embargoing emptied a training set.", "quantifier": "every n >= n_folds >= 2 and admissible purge/embargo", "why_tests_cant": "sizes depend on n mod k for all n, k", "anchors": ["quantfinlib/train_test_split/kfoldpe.py: TimeAwareKFold.split", "quantfinlib/train_test_split/kfoldpe.py: _modify_fold_bounds"]}
{"id": "C07", "title": "K-fold error conditions are exactly characterised", "statement": "TimeAwareKFold.split on an integer ndarray of groups finishes iff the validation conditions hold, the label at the end of the last-but-one even section differs from the last label, and every fold in use is non-empty and leaves a non-empty training set. For validated arguments it raises IndexError before any split iff that label equals the last label; otherwise, if no fold is swallowed by a single label, the only error is ValueError (emptied training set). Series groups raise KeyError before any split whenever an even section border falls inside a label. The constructor succeeds iff n_folds is an integer >= 2 and purge and embargo are non-negative integers or Timedeltas; a purge or embargo of another type is a TypeError, everything else a ValueError.", "quantifier": "every sorted group array and configuration", "why_tests_cant": "tests sample error inputs; the exact boundary of the error region needs proof", "anchors": ["quantfinlib/train_test_split/kfoldpe.py: _modify_fold_bounds", "quantfinlib/train_test_split/kfoldpe.py: _validate_split_settings", "quantfinlib/train_test_split/_base.py: BaseCV.__init__"]}
{"id": "C08", "title": "K-fold time-delta configurations", "statement": "A TimeAwareKFold built with Timedelta purge or embargo (accepted by the constructor) never yields a split: split raises for every input. Integer ndarray groups yield only without freq; time-valued groups (DatetimeIndex, time Series) only with freq; every other combination of group type and freq raises without yielding.", "quantifier": "every input and configuration of the four type combinations", "why_tests_cant": "the claim is about the absence of any successful input", "anchors": ["quantfinlib/train_test_split/kfoldpe.py: TimeAwareKFold.split", "quantfinlib/train_test_split/kfoldpe.py: _validate_split_settings", "quantfinlib/train_test_split/_base.py: _validate_purge_embargo_inputs"]}
{"id": "C09", "title": "Larger purge or embargo only removes training samples", "statement": "For fixed X, groups, fold count: increasing n_purge and/or n_embargo never adds an index to the training set of any fold and never changes a test set; with both zero, train and test together are all samples (look_forward=False).", "quantifier": "every pair of configurations ordered by purge and embargo, every input", "why_tests_cant": "a relational property over pairs of runs", "anchors": ["quantfinlib/train_test_split/_base.py: _purge", "quantfinlib/train_test_split/_base.py: _embargo", "quantfinlib/train_test_split/kfoldpe.py: TimeAwareKFold.split"]}
{"id": "C10", "title": "Walk-forward train and test are disjoint and ordered", "statement": "With gapless groups (every label between the first and the last occurs) and windows >= 1, in every split yielded by WalkForward.split all training labels are strictly smaller than all test labels and both sets are non-empty. With arbitrary sorted groups only the weak order holds (train label <= test label), and train and test of the first split are label-disjoint exactly when the label g0 + train_window - 1 occurs; on a business-day calendar samples can be in train and test of the same split.", "quantifier": "every accepted input, window sizes, embargo, split type, every yielded split of every (complete or abandoned) run", "why_tests_cant": "must hold at every loop iteration of every run; gaps in the groups matter", "anchors": ["quantfinlib/train_test_split/walk_forward.py: WalkForward.split"]}
{"id": "C100", "title": "Sums, simulated paths and indicators computed with 64-bit rounding", "statement": "A sum in any order of additions differs from the exact one by at most (1 + 2^-53)^height - 1, hence (n-1)u/(1-(n-1)u), of the sum of the absolute values, and is exact for whole numbers up to 2^53; a mean accordingly. The mean of three prices 0.1 is not 0.1 in any order, so their standard deviation is positive. A simulated path computed by cumulative sums is off by at most (1 + 2^-53)^t - 1 of the sum of the absolute increments, one step by at most half a unit of the new value; steps up never lower it and steps down never raise it; whole-number paths are exact; a path at 2^53 with steps in [0, 1) never moves; geometric paths stay positive. The relative strength index stays in [0, 100] and is missing exactly without movement; Bollinger bands keep their order.", "quantifier": "all lengths, all real inputs, all orders of summation, every rounding meeting the specification, and round-to-nearest-even with 53 bits in particular", "why_tests_cant": "tests compare with tolerances on short samples; the growth of the rounding error with the length and the order of numpy's additions are not sampled", "anchors": ["quantfinlib/sim/_bm.py:173-174", "quantfinlib/sim/_bm.py:216", "quantfinlib/sim/_gbm.py:228", "quantfinlib/feature/indicators/_rsi.py:27", "quantfinlib/feature/indicators/_rsi.py:50", "quantfinlib/feature/indicators/_bands.py:66-86"]}
{"id": "C101", "title": "Correlation distance matrices with the correlations of pandas, also with missing values", "statement": "Every entry of the correlation distance matrix of a data frame is the pairwise distance of the two columns (Pearson) or of their average ranks (Spearman) on the rows in which both columns are finite; it is nan exactly if there are fewer such rows than min_periods or one of the columns is constant on them. The same table given as an array is refused exactly if one entry would be nan and otherwise gives the same distances with a zero diagonal. Without missing values the distances satisfy the triangle inequality; with missing values they need not, two columns at distance zero from a third can be at distance one. Positive rescaling and shifting of columns does not change the Pearson matrix, strictly increasing functions do not change the Spearman matrix, and the order of the rows changes neither. A Spearman distance is zero exactly if the common rows are ordered alike by both columns (or oppositely, for the two distances ignoring the sign). The one-pass recurrence used by pandas computes the same correlation as the two-pass formula.", "quantifier": "all tables of floats with missing values in any places (infinities count as missing for Pearson; for Spearman no infinities), all min_periods, all methods", "why_tests_cant": "tests use complete random tables; missing values in any pattern and invariances over all functions cannot be enumerated", "anchors": ["quantfinlib/distance/distance_matrix.py:85-93", "quantfinlib/distance/distance_matrix.py:110-141", "quantfinlib/distance/correlation.py:20-39"]}
{"id": "C102", "title": "Correlation matrices computed by pandas with 64-bit rounding", "statement": "With every operation rounded to the nearest 64-bit float (no overflow or underflow) and a table of floats: the sums of squares of the one-pass recurrence are not negative; the square root of the rounded square of a float is the float; the correlation matrix is exactly symmetric with a diagonal of exactly 1 or nan, for both methods, so the exact comparison of the diagonal with 1 refuses an array exactly if some correlation is nan. The Pearson correlation of a column with its multiple by plus or minus a power of two is exactly plus or minus 1 or nan. A column that is constant on the common rows has the correlation nan. A column that is not constant can have the correlation nan too, even with itself, and whether it does can depend on the order of the rows.", "quantifier": "all tables of floats with missing values in any places, all min_periods; the sums of squares for every rounding", "why_tests_cant": "tests compare with tolerances; exactness of the diagonal for every table of floats and the two neighbouring floats for which it fails are not sampled", "anchors": ["quantfinlib/distance/distance_matrix.py:85-93", "quantfinlib/distance/distance_matrix.py:110-141", "quantfinlib/distance/correlation.py:20-26"]}
{"id": "C103", "title": "Clustering observations end to end", "statement": "For a table of observations with at least two columns, a correlation method and a valid distance: if every two columns have common finite rows and are not constant on them, HC(X=...) can be used, its distances are the pairwise ones, and with the linkage methods single, complete, average, weighted and ward get_clusters(k) labels every column with exactly min(k, columns) labels; otherwise a data frame still gives an object, every use of which raises ValueError, and an array is refused with AssertionError. Points at distance zero are never separated by a cut into at most as many clusters as there are points pairwise not at distance zero (transitive distances); in particular, without missing values, columns that are affine functions of each other (Pearson) or ordered alike (Spearman) get the same label whenever there are k columns no two of which are so related. With missing values this fails. The object is the same after rescaling and shifting of columns (Pearson; with any signs for the two distances ignoring the sign), after strictly increasing functions (Spearman) and after reordering the rows.", "quantifier": "all tables of observations with missing values in any places, all numbers of clusters, all linkages scipy may return", "why_tests_cant": "tests cluster one random table; ties at distance zero, missing-value patterns and invariances over all transformations cannot be enumerated", "anchors": ["quantfinlib/clustering/hierarchical.py:62-121", "quantfinlib/distance/distance_matrix.py:85-141"]}
{"id": "C104", "title": "What the technical indicators estimate", "statement": "On prices with independent identically distributed integrable changes that are not all zero, rsi over long windows converges to 50·(1 + E[change]/E|change|): 50 for symmetric changes, above 50 exactly if prices rise on average; rolling_mom converges to the mean change. On independent identically distributed values rolling_mean and rolling_std converge to mean and standard deviation, Bollinger bands to mean ± multiplier·sd, the bandwidth to 2·multiplier·sd/mean. Convergence is almost sure for windows that start at a fixed position and in probability for windows at any other places. The exponentially weighted mean is unbiased at every position, but its variance tends to variance/span, so it does not converge; the square of the exponentially weighted standard deviation is unbiased from the second position on and the standard deviation itself is too small on average; ewm_mom is unbiased for the mean change. On prices whose expectation is linear with slope b the exponentially weighted mean lags (span − 1)/2 steps behind in the long run and the expectation of macd tends to b·(slow − fast)/2.", "quantifier": "all probability spaces, all laws of the values with the stated moments, all spans, all positions, windows tending to infinity", "why_tests_cant": "statements about laws and limits; a test sees one sample of one law", "anchors": ["quantfinlib/feature/indicators/_rsi.py:8-27", "quantfinlib/feature/indicators/_base.py:1-222", "quantfinlib/feature/indicators/_bands.py:40-142", "quantfinlib/feature/indicators/_macd.py:9-29"]}
{"id": "C105", "title": "Information measures with the bin edges of numpy", "statement": "With every operation on the bin edges rounded to 64 bits, np.histogram (which guesses a bin and corrects it by one) and np.histogram2d (which searches the edges) put every value into the same bin, provided the range of the sample is at least 32·bins·2^-53 times the size of its ends; the edges then increase, lie within 8·2^-53·(|a|+|b|) of the exact ones, and bins are half-open between them. Under this condition mutual information stays non-negative and symmetric, in [0,1] when normalised (NaN exactly for one bin or a constant sample), and variation of information stays a metric on the groupings (non-negative, symmetric, zero exactly for equal groupings, triangle inequality plain and normalised). Samples without a value within that error of an inner edge get the exact measures. What is lost is invariance under shifts: the variation of information between the whole numbers 0, 28, 29, 58 and the same numbers plus 64 with 14 bins is positive.", "quantifier": "all rounding functions with the properties of 64-bit rounding, all samples of floats, all numbers of bins", "why_tests_cant": "the disagreement of the two histogram functions would show up for single values next to an edge only; tests use values in general position", "anchors": ["quantfinlib/distance/information.py:55-81", "quantfinlib/distance/information.py:84-138", "quantfinlib/distance/information.py:141-190"]}
{"id": "C106", "title": "Rolling means and deviations as pandas computes them", "statement": "rolling_mean and rolling_std go through the series once, adding the new value to a running sum (mean, sum of squares) and taking the old one out, with Kahan compensations and rounding after every operation. In exact arithmetic this gives the mean, sample variance and sample deviation of every window, with any missing values. With rounding: results are missing exactly where the window has fewer numbers than its length (below two for deviations); windows of equal values give exactly this value and the deviation 0; means of values that are not negative are not negative, deviations are never negative; windows of whole numbers give the correctly rounded mean however long the series; and in general the mean is off by at most 20·2^-53 times the sum of all absolute values so far over the window length. It cannot be bounded by the values in the window: after 2^120 and 2^60 the rolling mean of 1, 2, 3 is 1, and after one wrong price of 2^27 the rolling deviation of 1, 1, 2 is 0.", "quantifier": "all series with missing values, all windows, all positions; every rounding with the properties of 64-bit rounding (none needed for missing values, constant windows and signs)", "why_tests_cant": "the errors depend on the whole history before the window, tests start at the first price; missing values can fall in any pattern into the windows", "anchors": ["quantfinlib/feature/indicators/_base.py:54", "quantfinlib/feature/indicators/_base.py:74", "quantfinlib/feature/indicators/_rsi.py:25-26"]}
{"id": "C107", "title": "Technical indicators as computed with 64-bit numbers", "statement": "With rounding after every operation, on top of pandas' running algorithms for rolling and exponentially weighted means: both relative strength indices are missing or between 0 and 100 for all prices; over a window without falls the index is missing or exactly 100, without rises missing or exactly 0; for prices in whole ticks it is missing exactly when nothing moved and exactly 100 (0) after rises (falls) only. Bollinger bands are missing together, in order, and all equal to the price on windows of equal prices. Donchian bands are in order and within 2.1 units of the highest and lowest price; but the last price can lie above the upper band. Exponential averages differ from the exact ones by at most 114·2^-53·((span+1)/2 + missing values) times the largest price, however long the series, and while all prices are equal they are exactly this price and MACD is exactly 0.", "quantifier": "all price series with missing values, all windows, spans and positions; every rounding with the properties of 64-bit rounding", "why_tests_cant": "rounding errors of the running sums depend on the whole history, and thresholds like 100 or 0 are met or missed by the last bit; tests compare a few numbers with a tolerance", "anchors": ["quantfinlib/feature/indicators/_rsi.py:8-50", "quantfinlib/feature/indicators/_bands.py:66-86", "quantfinlib/feature/indicators/_bands.py:125-142", "quantfinlib/feature/indicators/_bands.py:210-225", "quantfinlib/feature/indicators/_base.py:118-134", "quantfinlib/feature/indicators/_macd.py:9-29"]}
{"id": "C108", "title": "Microstructure features as computed with 64-bit numbers", "statement": "With rounding after every operation, on top of pandas' running sums, means and variances: the Parkinson volatility and Hasbrouck's lambda are missing or not negative for all data, so is Roll's measure; Rogers-Satchell and Yang-Zhang are so for bars whose open and close lie between low and high, Kyle's and Amihud's lambda for volumes (and prices) that are not negative; the Corwin-Schultz spread is missing or between 0 and 2 for all data and the Becker-Parkinson volatility is never negative. VPIN is missing or at least 0 and at most 1 + 20·2^-53·(t+1)/window, exactly 1 if all trades of the window were on one side and exactly 0 if they were balanced; estimated buy volumes lie between 0 and the volume. In a window whose bars do not move Parkinson, Garman-Klass, Rogers-Satchell, the close-to-close variance, Roll's measure and the Corwin-Schultz spread are exactly 0, whatever happened before. But the close-to-close variance can be negative, and so can the rolling sum of two squares inside beta.", "quantifier": "all series with missing and infinite values, all windows and positions; every rounding with the properties of 64-bit rounding", "why_tests_cant": "signs and exact zeros after rounding depend on the whole history of the running sums; tests compare a few numbers with a tolerance and never meet the negative variance", "anchors": ["quantfinlib/feature/micro_structure/_price_sequences.py:10-31", "quantfinlib/feature/micro_structure/_price_sequences.py:35-58", "quantfinlib/feature/micro_structure/_price_sequences.py:62-94", "quantfinlib/feature/micro_structure/_price_sequences.py:98-129", "quantfinlib/feature/micro_structure/_price_sequences.py:133-171", "quantfinlib/feature/micro_structure/_price_sequences.py:175-234", "quantfinlib/feature/micro_structure/_price_sequences.py:373-472", "quantfinlib/feature/micro_structure/_sequential_trade_models.py:10-79", "quantfinlib/feature/micro_structure/_strategic_trade_models.py:10-124"]}
{"id": "C109", "title": "CUSUM test as computed with 64-bit numbers", "statement": "With rounding after every operation and logarithm, the statistic at t is the greatest departure of the rounded logarithms up to t + 9 roundings, so it differs from the greatest exact departure of the rounded logarithms by at most (t+9)u/(1-(t+9)u)·sqrt(t), and the critical value is exact up to 4 roundings. Rounding never makes the test reject at the first four steps; the statistic is negative exactly when the rounded log price is below all earlier ones; it is NaN when the rounded log prices have been constant. After five or more equal prices a rise of the log price by more than u(|log p| + |log q|) is flagged. But a smaller rise between two different prices can vanish in the logarithm: then the statistic is NaN, where the exact test rejects.", "quantifier": "all positive price series and positions (the flagging theorem for t + 9 <= 2^53/100); every rounding with the properties of 64-bit rounding, the vanishing rise for round-to-nearest-even", "why_tests_cant": "the error bound and the decisions hold for every series and position; tests compare a few statistics with a tolerance, and prices whose logarithms coincide are not in any sample", "anchors": ["quantfinlib/feature/structural_breaks/cusumtest.py:57-75"]}
{"id": "C11", "title": "Walk-forward embargo is respected", "statement": "With gapless groups every yielded training sample has label < (label of any test sample) - n_embargo. With arbitrary groups and n_embargo > 0 a training label is < (first test label) - n_embargo or equal to the first test label, and the yielded training set is non-empty.", "quantifier": "every accepted input, windows, embargo, every yielded split", "why_tests_cant": "all loop iterations of all runs", "anchors": ["quantfinlib/train_test_split/walk_forward.py: WalkForward.split", "quantfinlib/train_test_split/_base.py: _embargo"]}
{"id": "C110", "title": "Simulated paths as computed with 64-bit numbers", "statement": "With rounding after every operation, in any order of summation in the product with the Cholesky factor and with or without fused multiply-add, the three samplers fail exactly when and how the exact ones do. Brownian paths start exactly at x0 and at step t differ from the exact path with the same draws by at most (1+u)^(t+v+4) - 1 of the sum of the sizes of the terms. Geometric paths are positive and have relative error at most (1+u)exp(E) - 1, with E that bound for the logarithm. The error of Ornstein-Uhlenbeck paths does not accumulate: with r·dt at least four rounding errors it stays below K/(1-ρ) for every number of steps, where K is the error one step adds and ρ is exp(-r·dt) up to four roundings. But a geometric path does not start at its start: 100 becomes 100 + 3·2^-46; and with 2·r·dt <= 2^-54 every OU path stays at its start for ever, although the exact steps have standard deviation at least vol·sqrt(dt/2).", "quantifier": "all parameters, starts, step and path counts, draws, orders of summation; every rounding with the properties of 64-bit rounding, the two findings for round-to-nearest-even", "why_tests_cant": "the bounds hold for every path length and all draws; tests compare a few seeded paths with a tolerance, and no test uses a slow enough mean reversion to freeze the path", "anchors": ["quantfinlib/sim/_bm.py:190-218", "quantfinlib/sim/_gbm.py:198-231", "quantfinlib/sim/_ou.py:255-287", "quantfinlib/sim/_base.py:57-75"]}
{"id": "C111", "title": "Calibration of the Brownian models as computed with 64-bit numbers", "statement": "With rounding after every operation, in any order of summation and with or without fused multiply-add, the drift fitted to n+1 rows differs from the slope between the first and the last row by at most (1+u)^(n+2) - 1 of the average absolute increment over dt (log-returns: one rounding and 1 per return more), and vol·sqrt(dt) from the sample standard deviation by roundings of itself, of the average absolute and of the root mean square increment. Volatilities are non-negative, correlations lie in [-1, 1] and those on the diagonal are at most four roundings below 1. ValueError is raised exactly when in some of several columns all computed increments equal the computed mean, so never for columns whose computed increments differ, and always for a straight line on a binary grid; for data on such a grid the drift has only the roundings of its two divisions. But a straight line in steps of the float 0.1 is not recognised: the fit succeeds with a positive volatility made of rounding error and a zero correlation where exact arithmetic raises ValueError.", "quantifier": "all data matrices, time steps, orders of summation, Cholesky routines; every rounding with the properties of 64-bit rounding, grids and the finding for round-to-nearest-even", "why_tests_cant": "the error bounds hold for every data matrix and order of summation; the tests fit simulated data with tolerances and never fit a linear trend beside another column", "anchors": ["quantfinlib/sim/_bm.py:165-188", "quantfinlib/sim/_gbm.py:173-196"]}
{"id": "C112", "title": "WalkForward checks its construction and needs windows in the units of the labels", "statement": "WalkForward can be constructed exactly with a non-negative embargo and purge (integers or time differences) and split_type 'expanding' or 'rolling', whatever the windows; an embargo or purge of another type is a TypeError, everything else a ValueError. With freq, a window of k and a time difference of k units give the same object. Time labels without freq (even with time differences as windows) and integer labels with freq fail with TypeError at the first split.", "quantifier": "all constructor arguments; all accepted data, groups and windows", "why_tests_cant": "covers every combination of argument types and label types; the tests construct a handful", "anchors": ["quantfinlib/train_test_split/walk_forward.py:45-66", "quantfinlib/train_test_split/walk_forward.py:113-123", "quantfinlib/train_test_split/walk_forward.py:154-156"]}
{"id": "C113", "title": "Entropies, information measures and divergences as computed with 64-bit numbers", "statement": "With rounding after every operation, any order of summation of depth D and a logarithm accurate to κ units: the entropy of a histogram differs from its exact value by at most 2(3D+8+κ)u(H+1), is never negative and is zero exactly when one bin holds all values; mutual information, variation of information and divergence differ from the values with exact entropies of the same bins by explicit multiples of u·(log b + 1), normalised variation of information by such a multiple over the joint entropy, and the divergence of a sample from itself is exactly 0. Normalised variation of information is nan exactly for one bin or two constant samples. numpy's order adds each term once, with depth at most 25 + k for n ≤ 112·2^k + 16. But the ranges of the exact measures are lost: with numpy's order and correct rounding the normalised mutual information of a constant sample and another is +inf where it should be nan, the variation of information of a sample and itself is -2^-51, and its normalised mutual information 1 + 2^-52.", "quantifier": "all samples whose spacing is wide enough for the bins, all numbers of bins, orders of summation, logarithms and roundings with the properties of 64-bit rounding; findings for round-to-nearest-even in numpy's order", "why_tests_cant": "the bounds hold for every sample and order of summation; the tests compare few samples with a tolerance and never normalise with a constant sample beside a varying one", "anchors": ["quantfinlib/distance/information.py:55-81", "quantfinlib/distance/information.py:84-138", "quantfinlib/distance/information.py:141-190", "quantfinlib/distance/information.py:193-224"]}
{"id": "C114", "title": "What the size of a matrix divergence says about assets and portfolios", "statement": "For positive definite symmetric matrices: the log-determinant divergence of any linearly independent portfolios, in particular of a subset of the assets, is at most that of all assets (the same if the assets are only reordered); the ratio of the volatilities of every portfolio under the two matrices differs from 1 by at most the root of the divergence; conversely, if the variance of every portfolio changes by at most the fraction δ < 1 the divergence of n assets is at most n·δ²/(1-δ). It does not depend on a common unit, and from the identity it is -log det for a correlation matrix. The von Neumann divergence has the unit of the matrices, is invariant under common rotations, is at least the squared (Frobenius) distance over twice the largest and at most that distance over the smallest variance of a portfolio of norm one, so that correlation matrices of n assets with divergence r differ in each entry by at most sqrt(n r). Both add up over groups of assets without correlation between groups. Neither is symmetric and both violate the triangle inequality.", "quantifier": "all sizes, all positive definite symmetric matrices, all portfolios; any logm that takes logarithms of eigenvalues", "why_tests_cant": "inequalities over all pairs of matrices and all portfolios; the tests evaluate a few fixed matrices", "anchors": ["quantfinlib/distance/matrix_divergence.py:12-36", "quantfinlib/distance/matrix_divergence.py:39-62"]}
{"id": "C115", "title": "What the EDGE spread estimates", "statement": "Bars are independent and identically distributed around an efficient log price that moves overnight and during the bar; open and close are trades at half the spread s above or below it; no bar is a single price. Then the rolling EDGE estimate converges as the window grows (almost surely from any start, in probability at any positions; the NaN cases disappear) to the root of -4 A / po - 4 B / pc, where A is the covariance of the mid-range over the open with the open over the efficient price before it, B that of the distance of the efficient price from the close with the close over the mid-range, and po, pc count how often open and close are not the extremes. Drifts have no effect. With directions that are fair whatever else happens it is the root of (s^2 - 4 g)/po + s^2/pc, g the covariance of the mid-range with the overnight change: the spread itself if open and close lie strictly inside the range and g = 0; more if g < 0 or if open or close coincide with an extreme (15 percent too much for bars that move straight from open to close); less if 0 < g < s^2; at g = s^2 it is the spread again, and only sign=True shows the difference, with -s.", "quantifier": "all probability spaces, all such bars with finite variances, all spreads, both values of sign, all sequences of windows and positions", "why_tests_cant": "a statement about the limit of growing random samples; the tests compare a few numbers on a fixed sample", "anchors": ["quantfinlib/feature/micro_structure/_price_sequences.py:238-369"]}
{"id": "C116", "title": "How long purge and embargo must be", "statement": "A sample with label g is built from data with labels g-b to g+h (features look back b, the target looks ahead h). In every yielded split of TimeAwareKFold, whatever the labels, each training label is more than n_embargo before each test label or more than n_purge after it; so no training and test sample share data if b+h is at most both (only n_embargo with look_forward). On gapless labels this is exact: a finished run has no sharing split if and only if b+h < (n_purge+1) u and b+h < (n_embargo+1) u, u the label unit; with look_forward, and for WalkForward, every split shares data if and only if (n_embargo+1) u <= b+h. In particular a purge of any length with n_embargo=0 does not separate a target that looks one label ahead.", "quantifier": "all sample counts, fold counts, purge and embargo lengths, look-backs and look-aheads, integer and datetime labels, all walk-forward windows", "why_tests_cant": "the tests compare index lists of a few small inputs; whether a purge length suffices for a given look-ahead is a statement about all of them", "anchors": ["quantfinlib/train_test_split/_base.py:52-131", "quantfinlib/train_test_split/kfoldpe.py:107-161", "quantfinlib/train_test_split/walk_forward.py:86-156"]}
{"id": "C117", "title": "Separated groups of points are found", "statement": "Let the distances inside groups be at most c and those between groups greater than c. Cutting any single, complete, average or weighted linkage of the distances into as many clusters as there are groups gives two points the same label if and only if they are in the same group; for single linkage chains of steps of at most c suffice. Ward's method (the default) does so if the distances inside a group of size s lie in [lo, hi] with s/2 (hi^2 - lo^2) + lo^2 <= c^2, in particular if the distances between groups exceed sqrt(s/2) times those inside. The size matters: there are three groups with distances at most 1 inside and at least 1.2 between them that no Ward linkage finds: it joins the two single points and splits the group of four.", "quantifier": "all numbers of points, symmetric non-negative distances, groupings, linkages consistent with the method whatever the choice among ties", "why_tests_cant": "a test shows one data set on which the clusters look right; the guarantee is for all of them and the failure of the default depends on group sizes", "anchors": ["quantfinlib/clustering/hierarchical_clustering.py: linkage, get_clusters"]}
{"id": "C118", "title": "Groups of correlated series are found", "statement": "For the three correlation distances let the similarity be the correlation, its absolute value or its square. Groups with similarities of at least r inside and less than r between them are found by single, complete, average and weighted linkage; Ward's method finds them if r <= hi - s/2 (hi - lo) for every group of size s with similarities in [lo, hi], so always if the similarity is constant in each group. HC on a matrix of _cor_block_diagonal with positive block correlations (non-zero ones for the absolute and squared distances) and get_clusters(number of blocks) gives two series the same label if and only if they are in the same block, for all five methods.", "quantifier": "all symmetric correlation matrices, groupings, distances and methods; all lists of block sizes and correlations", "why_tests_cant": "quantifies over all correlation matrices and all choices among equal distances", "anchors": ["quantfinlib/clustering/hierarchical_clustering.py", "quantfinlib/math/cov.py:6-56", "quantfinlib/math/distances/correlation.py"]}
{"id": "C119", "title": "Groups of correlated series are found from long samples", "statement": "For independent rows with a common law of finite, positive variances, whose population similarities are greater than r inside groups and smaller than r between them, HC(X=...) on the first s rows (data frame or array, Pearson correlations as pandas computes them, any of the three distances) with single, complete, average or weighted linkage and get_clusters(number of groups) finds the groups for all sufficiently large s, with probability one; with Ward's method if the condition of C118 holds strictly in the population.", "quantifier": "all laws of the rows, numbers of series, groupings, distances, methods, sample lengths from some point on", "why_tests_cant": "a statement about the limit of random samples", "anchors": ["quantfinlib/clustering/hierarchical_clustering.py", "quantfinlib/math/distances/distance_matrix.py"]}
{"id": "C12", "title": "Walk-forward test sets are successive, disjoint and cover the tail", "statement": "The test sets yielded by an exhausted WalkForward.split generator are pairwise disjoint, come in increasing order and together are exactly the samples after the first training window.", "quantifier": "every input with gapless groups (every integer between first and last occurs), train_window >= 1, test_window >= 1; groups=None included", "why_tests_cant": "an unbounded loop with shifting boundaries", "anchors": ["quantfinlib/train_test_split/walk_forward.py: WalkForward.split"]}
{"id": "C120", "title": "What rank correlations estimate, and clustering by them", "statement": "For independent rows with a common law under which no series is constant, Spearman's correlations as pandas computes them (average ranks) tend, with probability one, to the correlation of P(X < x) + P(X = x)/2 taken at the two series: for every law, with or without ties, densities or moments. The limit does not change under increasing transformations of the series, is 0 for independent series and 1 for a series and an increasing function of it. Hence the distance matrices (data frame or array, Pearson or Spearman, all three distances) of long samples have no missing entries and tend to the distances of the population, and HC with Spearman's correlation finds groups separated by their rank correlations in all sufficiently long samples, with all methods as in C119.", "quantifier": "all laws of the rows, numbers of series, distances, methods, min_periods, groupings, sample lengths from some point on", "why_tests_cant": "a statement about the limit of random samples, uniform over all laws", "anchors": ["quantfinlib/clustering/hierarchical_clustering.py", "quantfinlib/math/distances/distance_matrix.py", "quantfinlib/math/distances/correlation.py"]}
{"id": "C121", "title": "Walk-forward windows that are not whole numbers", "statement": "WalkForward accepts windows given as floats, such as train_window=0.7*len(X). Whole numbers give the splits of the integers. If the computed number first label + train_window - 1 is none of the labels, every split of the run with a test set has a sample in both the training and the test set, whatever the embargo and the test window; for gapless labels and windows of at least 1 this is the only cause: if that number is an integer and adding the test window keeps labels apart, no split shares samples. Hence 0.57*100, which is less than 57 in floats, leaks although 0.5*100 does not; and a float test window can leak by rounding alone. The same persistence of the leak holds for integer and Timedelta windows that end in a gap of the labels.", "quantifier": "all sorted integer labels, all finite float or integer windows, embargoes, rolling and expanding, every step of the generator; all monotone roundings that are exact on small integers, in particular binary64", "why_tests_cant": "all windows and label sequences in an unbounded loop; the failing windows come from rounding errors of products such as 0.57*100", "anchors": ["quantfinlib/train_test_split/walk_forward.py: WalkForward.__init__", "quantfinlib/train_test_split/walk_forward.py: WalkForward.split"]}
{"id": "C122", "title": "The silhouette search merges groups that belong together", "statement": "Points fall into groups of equal size (at least 2), and groups into families of equally many groups (at least 2 groups, at least 2 families); points of different families are b' apart, points of different groups of one family b <= b', points of one group less than b. Then silhouette_tstat (mean silhouette divided by its standard deviation) of the families is never less than that of the groups, and greater if b < b' and the mean distances inside the groups differ, although the mean silhouette can be greater for the groups. Hence get_optimal_nclusters with the silhouette never returns the number of groups, whatever max_clust, although get_clusters with that number returns exactly the groups; for HC with single, complete, average and weighted linkage if b < b', and with Ward's method if the gaps are large enough.", "quantifier": "all numbers of points, group sizes, numbers of groups per family, distances inside groups, b, b', max_clust, linkage methods, choices among tied merges", "why_tests_cant": "a statement about all distance matrices of such a shape of any size; tests use one small matrix and do not compare with the ordinary mean silhouette", "anchors": ["quantfinlib/clustering/metrics.py: silhouette_tstat", "quantfinlib/clustering/hierarchical.py: optimize_n_clusters", "quantfinlib/clustering/hierarchical.py: HC.get_optimal_nclusters"]}
{"id": "C123", "title": "Denoised correlation matrices are factor models that shrink correlations", "statement": "Denoising a correlation matrix with m factors returns a factor model: the products of m loadings plus non-negative specific variances on the diagonal. Its smallest eigenvalue is never below that of the original; with m < n it is strictly positive definite exactly if the rank of the original exceeds m; the variance of any portfolio changes by at most the sum of squared weights times the difference of the (m+1)-st and the last eigenvalue; without factors the identity is returned. This holds for a given k (also negative) and for the fitted number of factors if the rank is at most the number of time steps. Denoising is not idempotent and not unbiased even with the right number of factors: one pair with correlation rho among n assets otherwise uncorrelated gets the correlation rho*n/(2(n-1)), and repeating removes it.", "quantifier": "all sizes, all correlation matrices, all k, all numbers of time steps, all portfolios, every choice of eigenvectors made by eigh and svd", "why_tests_cant": "a statement on all matrices and portfolios; a test sees one matrix and one choice of eigenvectors", "anchors": ["quantfinlib/math/cov.py: _cor_denoise", "quantfinlib/math/cov.py: _eig_complete", "quantfinlib/math/cov.py: _eig_to_cor", "quantfinlib/math/cov.py: _eigen_values_denoise"]}
{"id": "C124", "title": "What denoising of long samples tends to", "statement": "Denoising with a given number of factors depends only on the matrix (not on the eigenvectors chosen), is continuous, and follows reordering and sign changes of the assets, wherever the first m eigenvalues of the correlation matrix are separated from the others (or equal to the mean of the others). Hence for independent observations with finite variances above the floor, the denoised sample covariance matrix tends with probability one to the denoised covariance matrix of the population. That is the true one if the correlations follow a factor model with m factors and equal specific variances; it is not in general: the covariance of a single correlated pair among n assets tends to n/(2(n-1)) of the true one. Without separation denoising jumps: exchanging two pairs with correlations rho and rho-delta changes the result by 2/3 rho, however small delta is.", "quantifier": "all sizes, all numbers of factors, all laws of observations, every sample outside a null set, every choice of eigenvectors", "why_tests_cant": "a statement on limits of infinite samples and on all laws; a test on one finite sample shows neither a limit nor its absence", "anchors": ["quantfinlib/math/cov.py: _cov_denoise", "quantfinlib/math/cov.py: _cor_denoise", "quantfinlib/math/cov.py: _cov_to_cor"]}
{"id": "C125", "title": "What the fitted denoising of long samples does", "statement": "For a fixed number n of assets (n log n < 10^9) and independent observations with finite variances above the floor, with probability one the number of factors fitted to a long sample is eventually the number of eigenvalues of the population correlation matrix that are at least 0.01, and the denoised covariance matrix tends to the population's, denoised with that number of factors, provided that no population eigenvalue is one of the 1000 grid values. If all eigenvalues exceed 0.01, every sufficiently long sample covariance matrix is returned unchanged. This includes uncorrelated assets: instead of no factors the fit finds n.", "quantifier": "all numbers of assets below the bound, all laws of observations, every sample outside a null set, every choice of eigenvectors", "why_tests_cant": "a statement on limits of infinite samples and on all laws; it begins at sample lengths no unit test generates", "anchors": ["quantfinlib/math/cov.py: _marchenko_pastur_fit", "quantfinlib/math/cov.py: _eigen_values_denoise", "quantfinlib/math/cov.py: _cov_denoise"]}
{"id": "C126", "title": "What the default (gap) search of the number of clusters does with separated groups", "statement": "If n points form K groups of at least s >= 2 points, with distances at most c inside the groups and b > c between any two of them (or with groups inside families that are farther apart), and the reference distances are uniform and independent, then HC(...).get_optimal_nclusters (metric 'gap') returns fewer than K clusters with a probability of at most (72/5)(K-1) nb n^5 / ((1-c^2/b^2)^2 s^4 (s-1)^3), which tends to 0 as K equal groups grow; for groups inside families the silhouette metric never returns K. If the distances inside the groups are zero (duplicated or perfectly correlated series), the gap search never returns K-1, K or more, whatever the reference distances are, and with groups b apart it raises IndexError with a probability that tends to 1.", "quantifier": "all numbers of points, groups and draws, all distances of that form, all choices of linkage among ties, all laws of uniform draws independent in pairs for each seed", "why_tests_cant": "a probability over all reference draws and a limit in the size of the groups; tests have fixed seeds and few points", "anchors": ["quantfinlib/clustering/metrics.py: gap_statistic", "quantfinlib/clustering/hierarchical.py: optimize_n_clusters", "quantfinlib/clustering/hierarchical.py: HC.get_optimal_nclusters"]}
{"id": "C127", "title": "When the fitted denoising finds no noise", "statement": "The Marchenko-Pastur density at x is at most sqrt(T/n)/(pi x). Hence, if the fitted eigenvalues (zeros aside) differ by less than the factor pi sqrt(n/T) and are not below 0.01 (1+sqrt(n/T))^2, the fitted noise variance is 0.01 and all eigenvalues above that threshold count as factors; with at least as many time steps as assets the correlation matrix is returned unchanged. This holds for all correlation matrices whose other entries in each row sum to at most d in size with sqrt(T/n)(1+d) <= pi(1-d). With one time step fewer than assets it holds for all matrices: whatever the data, denoised covariances differ from the sample covariances by at most 0.06 times the product of the standard deviations.", "quantifier": "all correlation matrices of all sizes with these spectra, all numbers of time steps, all data sets of n-1 rows, every choice of eigenvectors", "why_tests_cant": "an inequality for all spectra and all data sets; a test sees single matrices and cannot tell that the fit never finds noise", "anchors": ["quantfinlib/math/cov.py: _marchenko_pastur_fit", "quantfinlib/math/cov.py: _marchenko_pastur_pdf", "quantfinlib/math/cov.py: _eigen_values_denoise", "quantfinlib/math/cov.py: _cov_denoise"]}
{"id": "C128", "title": "The step size that a fit on dated data uses", "statement": "Without dt, fit, nll, aic and bic take the time step from the dates. For at least three dates the step is 1/365 exactly for consecutive days, 1/12 exactly for the first or last days of successive months, 1/252 exactly for Monday-to-Friday calendars spanning a weekend or when pd.infer_freq finds no pattern, and ValueError in all other cases. Equally spaced dates other than daily (weeks, hours, newest first) raise, although time_series_freq knows weekly data. Unsorted or repeated dates, ticks, business days with a holiday, daily data with a gap and weekly data with a missing week are silently fitted with 1/252, which multiplies the volatility by the root of the ratio of the steps; after such a fit no path can be sampled without label_freq.", "quantifier": "all lists of at least three timestamps, over the whole Gregorian calendar", "why_tests_cant": "a classification of all calendars; tests see a few and the boundary cases depend on month lengths, weekdays and gaps", "anchors": ["quantfinlib/sim/_base.py: _DateTimeIndexInfo", "quantfinlib/sim/_base.py: _preprocess_fit_x_and_dt", "quantfinlib/_datatypes/timeseries.py: time_series_freq_to_duration"]}
{"id": "C129", "title": "The dates of sampled paths continue the calendar of the fitted data", "statement": "After a fit on consecutive days, on Monday-to-Friday dates or on the first or last days of successive months, a sample without label_start and label_freq is labelled along the same calendar: from the first date of the data on, or with x0='last' from the last date on, without gap or repetition and at the same time of day. A sample with as many rows as the data carries exactly its dates. Fitting on the sample gives the step size of the data (three rows, for business days six); a shorter forecast of business days that ends before the weekend reads as daily data, with 1/365 for 1/252. A label_start off the calendar is moved to a later date.", "quantifier": "all such calendars of at least three dates, all models, all numbers of steps", "why_tests_cant": "holds for every start date, length and horizon over the whole Gregorian calendar, with leap years and weekends", "anchors": ["quantfinlib/sim/_base.py: _preprocess_sim_path_args", "quantfinlib/sim/_base.py: _make_date_time_index", "quantfinlib/sim/_base.py: path_sample"]}
{"id": "C13", "title": "Walk-forward terminates with the expected number of splits", "statement": "For gapless groups spanning G labels, train_window = a >= 1, test_window = b >= 1: if a + b <= G and n_embargo < a the generator yields exactly ceil((G-a)/b) splits, the k-th being the documented one, and finishes; if a + b > G it raises IndexError, and if n_embargo >= a ValueError, before yielding anything.", "quantifier": "every such G, a, b, embargo and split type", "why_tests_cant": "termination and count of a while loop for all parameters", "anchors": ["quantfinlib/train_test_split/walk_forward.py: WalkForward.split"]}
{"id": "C130", "title": "Frequency of calendars with gaps and holidays", "statement": "For indices with steps of one to seven days (or of less than four weeks and at least six dates) time_series_freq gives D exactly with at most two steps other than a day, else B exactly with at most a tenth of the steps other than one or three days, else W exactly with at most two steps other than a week, else None. Business days with isolated holidays (21 days or more) give B exactly if at most one in eleven days after the first is a holiday. Daily data with three or more isolated missing days, up to a tenth of the steps, are reported as business days. Weekly data survive two gaps. The comparison with 0.9 is exact in floats. A model fitted on business days with a holiday finds no frequency where time_series_freq reports B, and cannot be sampled without label_freq.", "quantifier": "all indices with such steps, all positions of the gaps", "why_tests_cant": "all placements of gaps and holidays in the calendar; thresholds on counts", "anchors": ["quantfinlib/_datatypes/timeseries.py: time_series_freq", "quantfinlib/sim/_base.py: _DateTimeIndexInfo"]}
{"id": "C131", "title": "The Cholesky factor of a correlation matrix in floats", "statement": "With rounding after every operation, any order and fusion of the sums and division or multiplication by reciprocals, a factor returned for cor (v rows) is lower triangular with positive diagonal and L L^T differs from the lower triangle of cor by at most 9/4 (v+2) 2^-53 sqrt(cor_ii cor_jj). A matrix with a direction in which its form is below minus that bound is refused, so is a diagonal entry that is not positive; a matrix whose form exceeds twice the bound (for a unit diagonal: whose eigenvalues exceed 9/2 v (v+2) 2^-53) is accepted. Two variables with correlation r are accepted exactly when |r| < 1, and a correlation of one or more in size between the first two variables is always refused. Without rounding the recursion is a Cholesky factorisation that succeeds exactly on the positive definite matrices. Brownian paths constructed with the computed factor have covariances within the bound of those asked for.", "quantifier": "all matrices with (v+2) 2^-53 <= 1/64, all roundings, all orders of the sums, all blockings", "why_tests_cant": "all matrices near the boundary of positive definiteness and all evaluation orders of LAPACK", "anchors": ["quantfinlib/sim/_bm.py: BrownianMotion.__init__", "quantfinlib/sim/_gbm.py: GeometricBrownianMotion.__init__", "quantfinlib/sim/_ou.py: OrnsteinUhlenbeck.__init__"]}
{"id": "C132", "title": "Calibration to several columns with the computed Cholesky factor", "statement": "After a fit of several columns in floats L L^T differs from the fitted correlations by at most 9/4 (v+2) 2^-53 and these are positive semidefinite up to that bound, for any order of the sums. Proportional columns are not always recognised: for increments 5, -4, -1, 0, 0 and 23 times these the exact fit raises LinAlgError, in floats it succeeds in any order of summation with the correlation 1 - 2^-53.", "quantifier": "all data, all orders of the sums, all roundings; the finding for round-to-nearest-even", "why_tests_cant": "all data matrices and evaluation orders; the finding needs the last bit of a square root", "anchors": ["quantfinlib/sim/_bm.py: BrownianMotion._fit_np", "quantfinlib/sim/_gbm.py: GeometricBrownianMotion._fit_np"]}
{"id": "C133", "title": "Accuracy of the fitted correlations and success of well-conditioned fits in floats", "statement": "The correlation fitted to two columns of n increments differs from the exact sample correlation by at most 6 (n+4) 2^-53 (k_i + k_j), where k is the root mean square of the increments (for geometric Brownian motion of |log-return| + 1) divided by their standard deviation. If the exact sample correlation matrix has no eigenvalue below v (12 (n+4) 2^-53 K + 9/2 (v+2) 2^-53), K bounding the k's, the fit of v columns raises no error, whatever the order of the sums.", "quantifier": "all data with non-constant increments, all n and v with (n+4) 2^-53 and (v+2) 2^-53 at most 1/64, all orders of the sums, all roundings", "why_tests_cant": "all data matrices and evaluation orders; a test sees one order on one machine", "anchors": ["quantfinlib/sim/_bm.py: BrownianMotion._fit_np", "quantfinlib/sim/_gbm.py: GeometricBrownianMotion._fit_np"]}
{"id": "C134", "title": "Calibration of the Ornstein–Uhlenbeck process in floats", "statement": "For the regression line (slope, intercept) found for the last column, whatever numpy's solver returns: the slope used is at least SLOPE_TOL > 0; the computed rate and mean are -log(slope)/dt and intercept/(1-slope) within 3 * 2^-53 of their size; every volatility is within 10 * 2^-53 + loss of that of the line and the residual deviation, where loss = 2^-53 slope^2/|1-slope^2|; residual deviations and correlations differ from the exact ones of the same lines by explicit rounding bounds; the factor reproduces the correlations within 9/4 (v+2) 2^-53. Simulating with the fitted parameters uses the slope, intercept and residual deviation of the line again up to explicit multiples of 2^-53. One column is always fitted, several are when the correlation matrix of the residuals is sufficiently well conditioned. Without rounding this is the exact calibration. In 64-bit floats the loss is at most 2^-26 for every float slope other than one, so that volatilities have at least half of their digits; there are slopes for which the computed 1-slope^2 has no more.", "quantifier": "all data with at least three rows, all regression lines with slope other than one, all steps dt, all orders of the sums, all roundings", "why_tests_cant": "all data matrices, solver results and evaluation orders; a test sees one order on one machine", "anchors": ["quantfinlib/sim/_ou.py: OrnsteinUhlenbeck._fit_np", "quantfinlib/sim/_ou.py: OrnsteinUhlenbeck._path_sample_np"]}
{"id": "C135", "title": "Likelihood, AIC and BIC in floats, and the choice of a model by them", "statement": "The negative log-likelihood of a path of n increments, computed for one variate of a Brownian or geometric Brownian motion with positive volatility, differs from the exact one by at most (1+2^-53)^(n+17)-1 (geometric: n+21) times the sum over the increments of q^2/2 + |log scale| + |log sqrt(2 pi)| + 2, q being the absolute increment plus the absolute mean (geometric: the absolute terms of both, plus one) in units of the scale; With several variates and no correlation n is the number of increments of all columns together, and the sum is over all of them. For an Ornstein-Uhlenbeck process with positive rate the exponent is n + 4K + 4J + 39, for whole numbers K >= 6 mrr dt and J >= 8(K+1)/(exp(2 mrr dt) - 1): the digits that 1 - exp(-2 mrr dt) loses. AIC and BIC are off by at most four more roundings of their terms. If the exact AICs of two models differ by more than the sum of the bounds, the model with the smaller computed AIC is the one with the smaller exact AIC.", "quantifier": "all paths with at least one increment (positive ones for the geometric model), all drifts, positive volatilities and steps, all orders of the sum, all roundings", "why_tests_cant": "all paths, parameters and evaluation orders; a test compares two numbers on one machine with a tolerance it has to guess", "anchors": ["quantfinlib/sim/_bm.py: BrownianMotion._nll", "quantfinlib/sim/_gbm.py: GeometricBrownianMotion._nll", "quantfinlib/sim/_base.py: SimBase.aic", "quantfinlib/sim/_base.py: SimBase.bic", "quantfinlib/sim/_ou.py: OrnsteinUhlenbeck._nll"]}
{"id": "C14", "title": "Expanding windows grow, rolling windows keep their width", "statement": "With split_type='expanding' each training set (before embargo) contains the previous one; with 'rolling' the k-th training set consists of the groups [g0 + k*test_window, g0 + k*test_window + train_window - 1].", "quantifier": "every gapless input and every iteration k", "why_tests_cant": "loop invariant for all k", "anchors": ["quantfinlib/train_test_split/walk_forward.py: WalkForward.split"]}
{"id": "C15", "title": "Walk-forward split counter over call histories", "statement": "After any history of interleaved, abandoned, failed or exhausted split generators on one WalkForward object the counter plus the number of generators waiting at a yield equals the number of pairs delivered; get_n_splits returns this counter or 0, and 0 as long as no generator has ended; once released it never goes back to 0. Hence a second complete run doubles it.", "quantifier": "every history of interleaved split generators on one object", "why_tests_cant": "quantifies over all schedules of generator resumptions", "anchors": ["quantfinlib/train_test_split/walk_forward.py: WalkForward.get_n_splits", "quantfinlib/train_test_split/walk_forward.py: WalkForward.split"]}
{"id": "C16", "title": "Degenerate walk-forward windows", "statement": "With the default train_window=0 (integer labels, no embargo) the first yielded split trains on exactly the samples of the first label, all of which are test samples too. With test_window=0, gapless groups, 1 <= train_window < G and no embargo the generator never ends: every next yields the same training set with an empty test set.", "quantifier": "every accepted input of that kind; every number of next calls", "why_tests_cant": "non-termination is a statement about all prefixes of the run", "anchors": ["quantfinlib/train_test_split/walk_forward.py: WalkForward.split"]}
{"id": "C17", "title": "Simulated paths have the requested shape", "statement": "BrownianMotion and GeometricBrownianMotion samplers over v variates succeed exactly for num_steps >= 0, num_paths >= 0, v >= 1, a volatility of length 1 or v, a v x v Cholesky factor and a non-empty start row whose length divides v*num_paths; the result then has num_steps+1 rows and v*num_paths columns; every other shape raises (the class is characterised for negative sizes, empty and incompatible start rows and zero variates).", "quantifier": "every model, s, p, v, dt, noise", "why_tests_cant": "all shapes and all noise realisations", "anchors": ["quantfinlib/sim/_base.py: SimBase.path_sample", "quantfinlib/sim/_bm.py: BrownianMotion._path_sample_np", "quantfinlib/sim/_gbm.py: GeometricBrownianMotion._path_sample_np"]}
{"id": "C18", "title": "Paths start at x0", "statement": "The first row of a generated path is x0 tiled over the columns, for every model; an x0 whose length does not divide the number of columns raises ValueError.", "quantifier": "every x0, shape, parameters and noise (positive x0 for geometric Brownian motion)", "why_tests_cant": "must hold for every noise realisation and shape", "anchors": ["quantfinlib/sim/_base.py: SimBase.set_x0", "quantfinlib/sim/_bm.py: BrownianMotion._path_sample_np", "quantfinlib/sim/_gbm.py: GeometricBrownianMotion._path_sample_np", "quantfinlib/sim/_ou.py: OrnsteinUhlenbeck._path_sample_np"]}
{"id": "C19", "title": "Brownian increments", "statement": "Each increment of a Brownian path in column p*v+j equals drift_j*dt + vol_j*sqrt(dt)*(L z)_j with z the noise draw of that row/path; without noise (vol=0) the path is the straight line x0 + drift*dt*t.", "quantifier": "every parameter vector, L, noise matrix, row and column", "why_tests_cant": "cumsum over arbitrary lengths with a reshaped view; tests check moments only", "anchors": ["quantfinlib/sim/_bm.py: BrownianMotion._path_sample_np", "quantfinlib/sim/_base.py: _fill_with_correlated_noise"]}
{"id": "C20", "title": "Geometric Brownian paths stay positive and log-paths are Brownian", "statement": "For positive x0 every value of every GBM path is > 0, and its logarithm is the Brownian path with drift - vol^2/2 started at log x0.", "quantifier": "every noise realisation, parameters, dt >= 0, shape", "why_tests_cant": "for all noise; tests sample", "anchors": ["quantfinlib/sim/_gbm.py: GeometricBrownianMotion._path_sample_np"]}
{"id": "C21", "title": "Ornstein-Uhlenbeck recursion and mean reversion", "statement": "OU paths satisfy X[t+1] = mu + (X[t]-mu) e^{-theta dt} + s*noise; with zero noise X[t]-mu = (x0-mu) e^{-theta dt t}: the distance to the mean decreases geometrically; s keeps the stationary variance. A rate vector for two or more variates cannot be combined with several paths: sampling always raises.", "quantifier": "every parameter, step count, noise", "why_tests_cant": "closed form for all t", "anchors": ["quantfinlib/sim/_ou.py: OrnsteinUhlenbeck._path_sample_np"]}
{"id": "C22", "title": "Brownian fit telescopes and inverts noise-free sampling", "statement": "BrownianMotion.fit estimates drift = (last - first)/((rows-1)*dt) per column and a non-negative volatility, zero iff all increments of that column are equal; with fewer than three rows the volatility is NaN. The fit of several columns fails exactly when the Cholesky factorisation of the increment correlations fails or they are undefined; fitting a noise-free simulated path returns the simulated drift and volatility 0, and sampling after a fit succeeds.", "quantifier": "every data matrix with >= 2 rows, dt > 0", "why_tests_cant": "all data", "anchors": ["quantfinlib/sim/_bm.py: BrownianMotion._fit_np"]}
{"id": "C23", "title": "GBM fit is not the inverse of GBM sampling", "statement": "Fitting GeometricBrownianMotion to a noise-free path sampled with drift m and volatility v does not return m but m - v^2/2-type bias: the fitted drift of any data equals (log last - log first)/((rows-1) dt), without the +vol^2/2 term the sampler subtracts.", "quantifier": "every positive data matrix, dt > 0", "why_tests_cant": "relational statement about fit after sample for all parameters", "anchors": ["quantfinlib/sim/_gbm.py: GeometricBrownianMotion._fit_np", "quantfinlib/sim/_gbm.py: GeometricBrownianMotion._path_sample_np"]}
{"id": "C24", "title": "OU fit recovers the parameters of a noise-free path but leaves the object unusable", "statement": "For noise-free single-variate OU data with x0 != mean and e^{-theta dt} > 1e-8 the least-squares fit recovers mean and mean reversion rate exactly; after any successful fit, path_sample raises IndexError (the mean attribute is no longer 2-D); with several columns only the last column's parameters are kept; a fitted rate never exceeds the bound implied by the clipped slope.", "quantifier": "every mean, mrr > 0, dt > 0, x0, length; every dataset for the second part", "why_tests_cant": "parametric identity and an after-every-fit statement", "anchors": ["quantfinlib/sim/_ou.py: OrnsteinUhlenbeck._fit_np", "quantfinlib/sim/_ou.py: OrnsteinUhlenbeck._path_sample_np"]}
{"id": "C25", "title": "Correlation matrix from upper triangle", "statement": "The matrix assembled from n(n-1)/2 numbers is symmetric with unit diagonal and contains each number at its row-major upper-triangle position and mirrored; lengths that are not triangular raise ValueError.", "quantifier": "every list of correlations", "why_tests_cant": "all sizes; includes the integer square-root test", "anchors": ["quantfinlib/sim/_base.py: _triangular_index", "quantfinlib/sim/_base.py: _make_cor_from_upper_tri"]}
{"id": "C26", "title": "Correlated noise has the prescribed mean structure", "statement": "_fill_with_correlated_noise overwrites each row with loc + scale * (L z_row) (or loc + scale*z_row without L): linear in the noise, rows independent of each other, and the sample covariance of the result is D L S L^T D for S the sample covariance of z.", "quantifier": "every noise matrix, loc, scale, L", "why_tests_cant": "all matrices", "anchors": ["quantfinlib/sim/_base.py: _fill_with_correlated_noise"]}
{"id": "C27", "title": "Column names and labels are consistent with the shape", "statement": "Column names generated for v variates and p paths number v*p, keep variate order within each path, and are pairwise distinct when the variate names are printed differently, as the default names are. Different labels that print alike (0 and '0') give equal column names as soon as there are two paths.", "quantifier": "every number of variates and paths and names", "why_tests_cant": "injectivity for all sizes including zero padding", "anchors": ["quantfinlib/sim/_base.py: SimBase._make_columns_names"]}
{"id": "C28", "title": "path_sample output formatting", "statement": "path_sample returns an ndarray iff no labels and no column names are known, otherwise a DataFrame or Series with as many labels as rows and the simulated values; formatting fails exactly in the identified situations (labels wanted but no date index derivable: UnboundLocalError; include_x0=False on a Series).", "quantifier": "every combination of fitted state and arguments", "why_tests_cant": "decision logic over the cross product of state and arguments", "anchors": ["quantfinlib/sim/_base.py: SimBase._format_ans", "quantfinlib/sim/_base.py: SimBase._make_date_time_index", "quantfinlib/sim/_base.py: SimBase._preprocess_sim_path_args"]}
{"id": "C29", "title": "Likelihood scores mutate the model", "statement": "fit and nll/aic/bic overwrite the fit_* attributes (also when they fail later), so a later path_sample() without arguments starts from the data of the last such call; scores leave the model parameters alone, and explicit x0, dt and labels are unaffected by the history.", "quantifier": "every history of fit/nll/aic/bic/path_sample calls", "why_tests_cant": "all call histories", "anchors": ["quantfinlib/sim/_base.py: SimNllMixin", "quantfinlib/sim/_base.py: SimBase._preprocess_fit_x_and_dt"]}
{"id": "C30", "title": "Quasi-random model does not look ahead", "statement": "The added signal at step t is the sum of indicator values computed from the base path strictly before t, times one global constant which does depend on the future; the first row is the base path's first row unless the whole column is nan; the scaled signal has the requested standard deviation.", "quantifier": "every causal indicator function and base path", "why_tests_cant": "non-interference for all indicator functions", "anchors": ["quantfinlib/sim/_quasi_random.py: QuasiRandom._path_sample_np"]}
{"id": "C31", "title": "Inferred frequency always has a duration", "statement": "time_series_freq returns None or one of D,B,W,ME,MS,QE,QS,YE,YS, each of which has a positive duration in time_series_freq_to_duration; it returns None for fewer than three points.", "quantifier": "every date index", "why_tests_cant": "all date sequences", "anchors": ["quantfinlib/_datatypes/timeseries.py: time_series_freq", "quantfinlib/_datatypes/timeseries.py: time_series_freq_to_duration"]}
{"id": "C32", "title": "Regular daily, business-day and weekly indices", "statement": "At least 3 consecutive days anywhere in the calendar give 'D'. An index with steps of one or three days (business days) gives 'B' exactly if it spans at least three weekends and 'D' otherwise, so the second docstring example of time_series_freq gives 'D', not the documented 'B'. Weekly dates give 'W' from four dates on; three weekly dates give 'D'. A 3-point index always gets an answer and never 'B' or 'W'.", "quantifier": "every start date and length", "why_tests_cant": "all start dates and lengths; calendar arithmetic", "anchors": ["quantfinlib/_datatypes/timeseries.py: time_series_freq"]}
{"id": "C33", "title": "Period-end classification is coarsest-first", "statement": "Every year end is a quarter end and every quarter end is a month end (same for starts). On month ends only (at least three) the answer is the coarsest dominating level; year ends give YE, consecutive quarter ends QE. At least three consecutive month ends give ME with exactly one exception: four month ends beginning with a quarter end (e.g. March..June) give QE. The same for starts.", "quantifier": "every date index", "why_tests_cant": "all date sequences", "anchors": ["quantfinlib/_datatypes/timeseries.py: time_series_freq"]}
{"id": "C34", "title": "Covariance/correlation round trip", "statement": "For every covariance matrix (symmetric, positive semidefinite) the conversion to correlations gives a valid correlation matrix exactly when every variance is at least the floor 1e-6, and converting back restores the matrix; below the floor the diagonal is below one. Random matrices are valid.", "quantifier": "every size and matrix", "why_tests_cant": "all matrices", "anchors": ["quantfinlib/math/cov.py: _cov_to_cor", "quantfinlib/math/cov.py: _cor_to_cov"]}
{"id": "C35", "title": "Correlation rebuilt from eigenvalues", "statement": "The matrix rebuilt from eigenvalues and eigenvectors is symmetric with unit diagonal and entries in [-1,1]; with the full exact spectrum of a correlation it equals the original. It need not be positive semidefinite, even for non-negative eigenvalues summing to the size and orthonormal vectors.", "quantifier": "every eigen system", "why_tests_cant": "all matrices", "anchors": ["quantfinlib/math/cov.py: _eig_to_cor", "quantfinlib/math/cov.py: _cor_to_eig"]}
{"id": "C36", "title": "Eigenvalue denoising preserves trace and ordering", "statement": "Denoised eigenvalues keep their sum when there are at least as many time steps as assets (and can lose it otherwise); the retained largest ones are unchanged, all replaced ones equal the mean of the replaced and the order stays descending.", "quantifier": "every descending eigenvalue list, sizes", "why_tests_cant": "all spectra", "anchors": ["quantfinlib/math/cov.py: _eigen_values_denoise"]}
{"id": "C37", "title": "Denoised matrices are valid", "statement": "Denoising a correlation matrix returns a symmetric, unit-diagonal, positive semidefinite matrix with entries in [-1,1] whenever it returns; denoising a covariance matrix returns a covariance matrix whose variances are the originals raised to the floor.", "quantifier": "every matrix and exact eigen decomposition", "why_tests_cant": "all matrices", "anchors": ["quantfinlib/math/cov.py: _cor_denoise", "quantfinlib/math/cov.py: _cov_denoise"]}
{"id": "C38", "title": "Marchenko-Pastur support and density", "statement": "The support satisfies 0 <= lower < upper; the density is positive exactly strictly inside it and zero elsewhere; it integrates to min(1, T/N); the variance only rescales it; the fitted variance is the first grid maximiser in [0.01, 4] or 0 when no likelihood exceeds -1e9. Its mean is the variance parameter and its second moment var^2 (1 + N/T); these are the expected mean and mean square of the eigenvalues of the sample covariance matrix of independent noise, the second one up to (fourth moment - 2 var^2)/T.", "quantifier": "every ratio and variance", "why_tests_cant": "all parameters", "anchors": ["quantfinlib/math/cov.py: _marchenko_pastur_pdf", "quantfinlib/math/cov.py: _marchenko_pastur_support"]}
{"id": "C39", "title": "Block-diagonal correlation matrix", "statement": "The generated matrix has unit diagonal, the given correlation inside blocks and zero across, and the size is the sum of the block sizes; it is a valid correlation matrix iff each block correlation lies in [-1/(s-1), 1].", "quantifier": "every list of block sizes and correlations", "why_tests_cant": "all sizes", "anchors": ["quantfinlib/math/cov.py: _cor_block_diagonal"]}
{"id": "C40", "title": "Correlation distances are within range, symmetric, zero on the diagonal", "statement": "Every distance is the documented formula at the correlation clipped to [-1,1], lies in [0,1], and is nan only for nan; an accepted array gives zeros on the diagonal and, if it is exactly symmetric, a symmetric matrix. The outcome for arrays and data frames is characterised completely, including the cases where they differ.", "quantifier": "every matrix, data frame, number, method name", "why_tests_cant": "all matrices", "anchors": ["quantfinlib/distance/correlation.py: corr_to_angular_dist", "quantfinlib/distance/correlation.py: corr_to_abs_angular_dist", "quantfinlib/distance/correlation.py: corr_to_squared_angular_dist"]}
{"id": "C41", "title": "Correlation distances are metrics", "statement": "For Pearson correlations of arbitrary samples the angular distance satisfies the triangle inequality (and so do the absolute and squared versions), and is zero iff the correlation is 1 (|corr| = 1 for the other two).", "quantifier": "every triple of non-constant samples of any length", "why_tests_cant": "inequality over all real samples", "anchors": ["quantfinlib/distance/correlation.py: corr_to_angular_dist", "quantfinlib/distance/correlation.py: pair_angular_distance"]}
{"id": "C42", "title": "Correlation distances are monotone", "statement": "The angular distance is strictly decreasing in the correlation; the absolute and squared versions in |correlation|.", "quantifier": "every pair of correlations in [-1,1]", "why_tests_cant": "all reals", "anchors": ["quantfinlib/distance/correlation.py: corr_to_angular_dist"]}
{"id": "C43", "title": "Mutual information laws", "statement": "With a given number of bins, mutual_info of two finite samples of equal length is not negative, at most either entropy, symmetric, unchanged by increasing affine transformations, zero exactly if the bins are independent, and equal to the entropy for a sample with itself; the entropies are at most log(bins). Normalised it is in [0,1], or nan exactly for one bin or a constant sample. compute_entropies fails with ValueError exactly for unequal lengths, fewer than two values, non-finite values or no bins; bins are half-open intervals of equal width, the last one closed.", "quantifier": "every pair of samples and every number of bins", "why_tests_cant": "all samples", "anchors": ["quantfinlib/distance/information.py: mutual_info", "quantfinlib/distance/information.py: compute_entropies"]}
{"id": "C44", "title": "Variation of information laws", "statement": "var_info is not negative, symmetric, zero exactly if the bins of the samples determine each other, and with a common number of bins satisfies the triangle inequality, both plain and normalised; normalised it is in [0,1], or nan exactly for one bin or two constant samples. With the automatic number of bins, the default, the triangle inequality is false: three samples of four values are given whose distances are 0, 0 and positive.", "quantifier": "all samples and numbers of bins; negation with a witness", "why_tests_cant": "all samples", "anchors": ["quantfinlib/distance/information.py: var_info"]}
{"id": "C45", "title": "KL divergence of samples is not a divergence", "statement": "kl_divergence_xy leaves out bins without values of the second sample and can therefore be negative (witness); if no bin holds values of x only, it is not negative and zero exactly for equal shares. The samples are binned over their own ranges, so the result is zero for every increasing affine image, such as the sample shifted by 1000.", "quantifier": "every pair of samples", "why_tests_cant": "all samples; negation with a witness", "anchors": ["quantfinlib/distance/information.py: kl_divergence_xy"]}
{"id": "C46", "title": "Automatic numbers of bins", "statement": "_get_optimal_nb_bins rounds the solution of s^2(s-1)=3n, or of s^2(s^2-1)=6n/(1-rho^2); the result is at least 2 for n>=1 and increases with n and |rho|. _get_nb_bins_from_xy fails with ValueError for unequal lengths or a constant sample and with OverflowError for a decreasing affine relation such as x and -x; in all other cases it is at least 2, so that the normalised measures are numbers in [0,1].", "quantifier": "every sample size, correlation and pair of samples", "why_tests_cant": "closed-form root of a cubic for all n; all samples", "anchors": ["quantfinlib/distance/information.py: _get_optimal_nb_bins", "quantfinlib/distance/information.py: _get_nb_bins_from_xy"]}
{"id": "C47", "title": "Pairwise distance matrices", "statement": "The matrix of get_info_distance_matrix is symmetric and has the measure of each pair of different columns at both positions; it exists exactly for two or more columns such that every pair has a value. The diagonal is 0 for var_info and 1 for mutual_info, also without normalisation, where the mutual information of a column with itself is not 1. With given bins the plain var_info matrix is a pseudometric.", "quantifier": "every table, method, number of bins", "why_tests_cant": "all sizes", "anchors": ["quantfinlib/distance/distance_matrix.py: _get_info_distance_matrix", "quantfinlib/distance/distance_matrix.py: get_info_distance_matrix"]}
{"id": "C48", "title": "Matrix divergences", "statement": "log_det_divergence and von_neuman_divergence are not negative for positive definite symmetric matrices of the same size, and zero exactly for equal ones; the log-determinant divergence is invariant under a common change of coordinates and exchanges its arguments under inversion. The check of the code accepts every matrix whose eigenvalues have positive real parts, symmetric or not, and for such matrices the log-determinant divergence takes every value -c^2. Matrices of different sizes are rejected by log_det_divergence, but von_neuman_divergence returns a number, possibly negative, if the second one is 1 x 1.", "quantifier": "every size and pair of matrices", "why_tests_cant": "all matrices", "anchors": ["quantfinlib/distance/matrix_divergence.py: log_det_divergence", "quantfinlib/distance/matrix_divergence.py: von_neuman_divergence", "quantfinlib/distance/matrix_divergence.py: _assert_positive_definite"]}
{"id": "C49", "title": "Indicators never look ahead", "statement": "For every indicator (rolling mean/std/min/max, ewm mean/std, momentum, bands, MACD, RSI, ATR) the first t output values depend only on the first t input values, and the output has the length of the input; the one exception is rolling_mom with a negative window, which is accepted and returns differences with later values.", "quantifier": "every series, window, cut point t", "why_tests_cant": "non-interference over all pairs of series sharing a prefix", "anchors": ["quantfinlib/feature/indicators/_base.py", "quantfinlib/feature/indicators/_bands.py", "quantfinlib/feature/indicators/_macd.py", "quantfinlib/feature/indicators/_rsi.py"]}
{"id": "C50", "title": "Rolling indicators have exactly window-1 leading missing values", "statement": "On a series of numbers, the rolling mean/min/max (and the rolling std for windows of at least two) is missing exactly at the first window-1 positions and equals the statistic of the last window values afterwards; rolling min <= mean <= max wherever they are defined.", "quantifier": "every finite series and window >= 1", "why_tests_cant": "all windows, all series", "anchors": ["quantfinlib/feature/indicators/_base.py: rolling_mean, rolling_min, rolling_max"]}
{"id": "C51", "title": "RSI is bounded and reflects", "statement": "RSI is missing or in [0,100]; reflecting the prices maps RSI to 100-RSI; rising prices give 100, falling prices 0, flat prices NaN; a missing price counts as no move, so a jump across the gap is not seen.", "quantifier": "every price series and window", "why_tests_cant": "all series", "anchors": ["quantfinlib/feature/indicators/_rsi.py: rsi"]}
{"id": "C52", "title": "Bands are ordered", "statement": "Whenever defined, lower <= middle <= upper for Bollinger, ewm-Bollinger and Donchian bands with non-negative multiplier, and for Keltner channels if also low <= high; %b is 0 on the lower, 1/2 on the middle and 1 on the upper band, Donchian %b lies in [0,1], Bollinger %b within (w-1)/(2 k sqrt w) of 1/2; the true range is the maximum of the three documented distances.", "quantifier": "every series and window", "why_tests_cant": "all series", "anchors": ["quantfinlib/feature/indicators/_bands.py"]}
{"id": "C53", "title": "Exponentially weighted mean is a convex combination", "statement": "ewm_mean at t is the weighted mean of the numbers so far with weights (1-alpha)^age (missing values keep their age), hence between their minimum and maximum; ewm_std is the unbiased weighted deviation; MACD of a constant series is zero; on prices that never fall it is not negative, and with fast < slow positive exactly if the price has risen since the start (mirrored for prices that never rise); macd_signal returns MACD minus its own exponential mean.", "quantifier": "every series and span >= 1", "why_tests_cant": "all series", "anchors": ["quantfinlib/feature/indicators/_base.py: ewm_mean", "quantfinlib/feature/indicators/_macd.py"]}
{"id": "C54", "title": "Indicator input dispatch", "statement": "Indicators return ndarrays for ndarray input, pandas objects for pandas input, and raise TypeError for mixed input, without changing the values.", "quantifier": "every argument list", "why_tests_cant": "all argument combinations", "anchors": ["quantfinlib/feature/indicators/_base.py: numpy_io_support"]}
{"id": "C55", "title": "Volatility estimators: sign, formula and unit", "statement": "Close-close and high-low (Parkinson) estimators are NaN or >= 0; Rogers-Satchell, Garman-Klass and Yang-Zhang are so for bars with low <= open, close <= high (Garman-Klass and Rogers-Satchell can be negative otherwise); each equals its window formula (all are variances, not deviations), is unchanged when all prices are multiplied by a positive number, and the first w close-close values are NaN; Yang-Zhang with window 1 raises ZeroDivisionError, negative windows raise ValueError, and Yang-Zhang uses the close against the previous open, so that bars without intrabar movement get 1 + k times the close-close value.", "quantifier": "every OHLC series and window", "why_tests_cant": "all series, all windows, all missing-value patterns", "anchors": ["quantfinlib/feature/micro_structure/_price_sequences.py"]}
{"id": "C56", "title": "Corwin-Schultz spread and Becker-Parkinson volatility", "statement": "The Corwin-Schultz spread is NaN or in [0, 2) and the Becker-Parkinson volatility is NaN or >= 0; both equal their window formula and do not depend on the price unit; the second term of alpha is added instead of subtracted, so that the clamping of negative alphas never acts and constant bars get an exponent 3 + 2 sqrt 2 times too large.", "quantifier": "every high/low series and window", "why_tests_cant": "all series", "anchors": ["quantfinlib/feature/micro_structure/_price_sequences.py: get_cowrin_schultz_spread, get_becker_parkinson_volatility, _get_alpha, _get_beta, _get_gamma, _get_sigma"]}
{"id": "C57", "title": "VPIN and trade classification", "statement": "Bulk-classified buy volume is NaN or in [0, volume], at least (most) half of the volume after a rise (fall), and all or nothing when the deviation is zero; VPIN is NaN or in [0,1] when 0 <= buy <= volume, equals its window formula, is NaN while a bar without volume is in the window, and does not depend on the volumes when the buy volumes are bulk-classified.", "quantifier": "every volume/price/deviation series, window and symmetric distribution function", "why_tests_cant": "all series", "anchors": ["quantfinlib/feature/micro_structure/_sequential_trade_models.py"]}
{"id": "C58", "title": "Price-impact lambdas", "statement": "Kyle's, Amihud's and Hasbrouck's lambdas are NaN or >= 0 for non-negative volumes and prices and equal their window formulas; prices in units k times smaller and volumes in units m times smaller multiply them by k/m, 1/(km) and 1/sqrt(km); one bar without a price change makes Kyle's lambda NaN for the whole window, and across a missing close Amihud's return is taken from the last known price.", "quantifier": "every series and window", "why_tests_cant": "all series", "anchors": ["quantfinlib/feature/micro_structure/_strategic_trade_models.py"]}
{"id": "C59", "title": "EDGE / Roll spread sign rules, formulas and units", "statement": "Roll's measure is NaN or >= 0 and equals 2 sqrt|autocovariance of log returns| (the sign of the autocovariance is dropped); the unsigned EDGE estimate is never negative, the signed one is plus or minus it, on positive prices it is the published estimator over the window's pairs of bars (NaN in the degenerate cases, always NaN for windows 1 and 2, ValueError below 1), its square lies between the two estimates it combines; neither depends on the price unit.", "quantifier": "every OHLC series and window", "why_tests_cant": "all series, all windows", "anchors": ["quantfinlib/feature/micro_structure/_price_sequences.py: get_roll_measure, get_roll_impact, get_edge_spread, _edge_spread"]}
{"id": "C60", "title": "CUSUM test", "statement": "The Chu-Stinchcombe-White statistic is zero at index 0 and on positive, not yet constant prices the greatest standardised departure over all earlier reference points, with the critical value of the earliest maximiser; critical values lie in [sqrt 4.6, sqrt(4.6 + log t)] for all data; outputs are causal and invariant under positive scaling and powers of the prices; |S_t| <= sqrt t, so nothing is rejected at t <= 4, while after five or more equal prices any rise is flagged; constant prices give NaN; S_t < 0 iff the price is below every earlier price.", "quantifier": "every series and index", "why_tests_cant": "all series", "anchors": ["quantfinlib/feature/structural_breaks/cusumtest.py"]}
{"id": "C61", "title": "Cluster-number selection", "statement": "With the silhouette method the selected number is the first k >= 2 whose score is maximal in numpy's sense (a NaN beats every number, so the first NaN wins). With the gap method it is the first k with gap(k) - gap(k+1) + s(k+1) > 0 in the range 2..max_clust-1, IndexError if there is none; the answer is never 1, never max_clust and never above n-2. Unknown metrics and an empty range raise.", "quantifier": "every distance table, cut, random stream, max_clust and metric", "why_tests_cant": "all score sequences", "anchors": ["quantfinlib/clustering/hierarchical.py: optimize_n_clusters"]}
{"id": "C62", "title": "Gap statistic and silhouette t-statistic", "statement": "The gap statistic is the mean log of the reference dispersions minus the log of the dispersion, the second value is the population standard deviation of the reference logs (without the factor sqrt(1+1/nb) of the literature); it depends on the labels only through the partition, is unchanged by positive scaling of the distances together with max, has a stated upper bound, is (+inf, 0) for singletons. The silhouette t-statistic is mean over standard deviation of the silhouette values of Rousseeuw's definition, each in [-1, 1], invariant under relabelling, permutation of the points and scaling.", "quantifier": "every distance table, labelling, seed and number of reference sets", "why_tests_cant": "all data sets and relabellings", "anchors": ["quantfinlib/clustering/metrics.py"]}
{"id": "C63", "title": "Logger configuration", "statement": "After every history of configurations, user handlers and imports, a successful configure_logger leaves exactly one console handler and, if asked for, exactly one file handler, with the level of that call, so that a message at or above the verbosity is written exactly once to each; it succeeds iff the verbosity is a level and the file can be opened; a bad level changes nothing.", "quantifier": "every call history, level, path and message level", "why_tests_cant": "all histories", "anchors": ["quantfinlib/util/_logging.py: configure_logger", "quantfinlib/distance/distance_matrix.py:22-23"]}
{"id": "C64", "title": "Input validators accept exactly their domain", "statement": "A decorated function raises TypeError iff the call does not fit its signature, ValueError iff a named argument that is given is neither None nor valid, and otherwise behaves as the function itself; position or keyword and the order of stacked decorators do not matter. The array, frame and series annotations accept exactly the stated values and return them unchanged.", "quantifier": "every signature, call, function and value", "why_tests_cant": "all inputs and signatures", "anchors": ["quantfinlib/util/_validate.py", "quantfinlib/util/_custom_types.py", "quantfinlib/util/_dtypes.py: to_numpy"]}
{"id": "C65", "title": "Simulated paths are causal in the random stream", "statement": "The values of a path up to time T depend only on the draws of that path before T; in particular a longer simulation with the same seed and number of paths extends the shorter one.", "quantifier": "every pair of lengths and random streams agreeing on the draws concerned", "why_tests_cant": "non-interference over all streams", "anchors": ["quantfinlib/sim/_bm.py: BrownianMotion._path_sample_np", "quantfinlib/sim/_gbm.py: GeometricBrownianMotion._path_sample_np", "quantfinlib/sim/_ou.py: OrnsteinUhlenbeck._path_sample_np"]}
{"id": "C66", "title": "Start-value and fit equivariance", "statement": "Shifting the start of a Brownian sample shifts the whole sample; multiplying the positive start of a geometric sample by k > 0 multiplies the whole sample by k. Correspondingly the Brownian fit of k*x + c has k times the drift and |k| times the volatility, and the geometric fit does not change when all prices are multiplied by k > 0.", "quantifier": "every parameters, shapes, streams, shifts and factors", "why_tests_cant": "relational over all streams", "anchors": ["quantfinlib/sim/_bm.py: BrownianMotion._path_sample_np", "quantfinlib/sim/_gbm.py: GeometricBrownianMotion._path_sample_np"]}
{"id": "C67", "title": "Fitted parameters versus the likelihood", "statement": "For every data set and volatility the drift returned by BrownianMotion.fit minimises the negative log-likelihood computed by nll over all drifts; the returned volatility (ddof=1) never is the minimiser unless it is zero; for GeometricBrownianMotion the minimising drift is the mean log return plus vol^2/2, not divided by dt, whereas the fitted drift is the mean log return divided by dt, so the fitted drift is the minimiser only if mean (1/dt - 1) = vol^2/2 and the drift that inverts the sampler only if dt = 1 or the mean is zero.", "quantifier": "for all data sets with at least two rows, all positive dt and all volatilities", "why_tests_cant": "optimality is a statement over all parameter values", "anchors": ["quantfinlib/sim/_bm.py: BrownianMotion._nll", "quantfinlib/sim/_bm.py: BrownianMotion._fit_np", "quantfinlib/sim/_gbm.py: GeometricBrownianMotion._nll"]}
{"id": "C68", "title": "AIC and BIC of a simulation model", "statement": "aic and bic are computed from the total negative log-likelihood multiplied once more by the number of samples; the standard AIC is returned exactly if that product does not change the value (one sample or zero likelihood), and rankings of two models on the same data can differ from the standard ones.", "quantifier": "every model, data set and parameter count", "why_tests_cant": "a formula error shows only as a wrong ranking for some pairs of models", "anchors": ["quantfinlib/sim/_base.py: SimNllMixin.aic", "quantfinlib/sim/_base.py: SimNllMixin.bic"]}
{"id": "C69", "title": "Microstructure features never look ahead", "statement": "For each microstructure feature the output has the length of the inputs and its value at t depends on inputs up to t only; the only errors are those of the window argument (negative; 1 for Yang-Zhang; below 1 for EDGE).", "quantifier": "every series, window and cut point", "why_tests_cant": "all series and all cut points", "anchors": ["quantfinlib/feature/micro_structure/_price_sequences.py", "quantfinlib/feature/micro_structure/_sequential_trade_models.py", "quantfinlib/feature/micro_structure/_strategic_trade_models.py"]}
{"id": "C70", "title": "The linkage of an HC object", "statement": "After any history of calls the cached linkage is the one computed from the attributes at some earlier moment; once computed it never changes, get_clusters cuts it and get_optimal_nclusters cuts it while judging with the distances assigned last; without assignments every call gives what it would give on the object at the beginning; a failed computation leaves the object unchanged.", "quantifier": "every history of reads, calls and assignments to dist and linkage_method", "why_tests_cant": "all histories", "anchors": ["quantfinlib/clustering/hierarchical.py: HC"]}
{"id": "C71", "title": "Construction of HC objects", "statement": "A given dist is stored unchecked and everything else ignored; otherwise the stated precedence of corr and X holds and missing inputs or unknown codependence raise ValueError; the linkage can be computed exactly for symmetric finite tables with zero diagonal and at least two points; from a frame this means that no correlation (or variation of information) is NaN.", "quantifier": "every argument, every DataFrame.corr meeting its specification, every scipy linkage", "why_tests_cant": "all inputs", "anchors": ["quantfinlib/clustering/hierarchical.py: HC.__init__, _compute_distance_matrix, linkage"]}
{"id": "C72", "title": "Project root and data set loaders", "statement": "The root is three levels above the file for every installation and relative paths are appended; loaders raise FileNotFoundError when the file is missing and otherwise return the rows of the file unchanged whatever the logger does; the treasury renaming keeps distinct columns distinct, is idempotent and gives the documented maturities.", "quantifier": "every installation path, file system, file content and logger state", "why_tests_cant": "tests see one installation and one file", "anchors": ["quantfinlib/util/_fs_utils.py", "quantfinlib/datasets/_dataloader.py"]}
{"id": "C73", "title": "The likelihood is that of correlated normal increments", "statement": "nll with a correlation matrix is the negative sum of the multivariate normal log densities of the increments with mean drift*dt and covariance vol_i vol_j cor_ij dt, and raises exactly when that covariance is not positive definite; with the identity as correlation it equals the value without correlation, which is the sum of the one-variate values of the columns; cutting a path at any row adds the values of the two pieces (all three models); permuting the variates changes nothing.", "quantifier": "every dimension, data array, parameter vector, symmetric correlation array, dt, and every eigendecomposition meeting its specification", "why_tests_cant": "all dimensions, data and matrices; tests cover one variate", "anchors": ["quantfinlib/sim/_bm.py: _nll", "quantfinlib/sim/_gbm.py: _nll", "quantfinlib/sim/_ou.py: _nll"]}
{"id": "C74", "title": "Shapes accepted by the likelihood and the parameter count", "statement": "A single data column is silently used for every variate; one common volatility with a correlation matrix can be sampled but has no likelihood; the likelihood of one OU path is that of its exact transition, whereas after a fit to several columns it always raises; num_parameters_ is 2 or 3 whatever the number of variates, so AIC and BIC count the parameters of one variate only.", "quantifier": "every dimension, data array and parameter vector", "why_tests_cant": "all shapes and data", "anchors": ["quantfinlib/sim/_bm.py: __init__, _nll", "quantfinlib/sim/_gbm.py: __init__", "quantfinlib/sim/_ou.py: __init__, _fit_np, _nll"]}
{"id": "C75", "title": "Calibration against the likelihood of the same model", "statement": "For several Brownian variates, the fitted drifts and correlations with the volatilities scaled by sqrt((n-1)/n) are the unique minimum (up to the covariance) of nll over all drifts, volatilities and correlations; the fitted volatilities themselves are worse by d/2 (n log(n/(n-1)) - 1) > 0 for all data. For one OU path whose slope is not clamped, the fitted mean and rate with the same scaling minimise nll over all parameters.", "quantifier": "every data array, dt > 0, competing parameter vector and correlation array, every factorisation and eigendecomposition meeting its specification", "why_tests_cant": "an optimum over a continuum of competing parameters, for all data", "anchors": ["quantfinlib/sim/_bm.py: _fit_np, _nll", "quantfinlib/sim/_ou.py: _fit_np, _nll"]}
{"id": "C76", "title": "Sampler and likelihood describe the same process", "statement": "The likelihood of one simulated path under the parameters that generated it is half the sum of the squared draws plus a constant per step, for Brownian motion and for the Ornstein-Uhlenbeck process, with and without correlations; it depends neither on the drift or mean nor on the start. For geometric Brownian motion every draw is shifted by (dt-1) u with u solving vol sqrt(dt) L u = drift - vol^2/2, so the property holds for every drift only if dt = 1.", "quantifier": "every dimension, number of steps, sequence of draws, parameter vectors, invertible factor and dt > 0", "why_tests_cant": "all draws and dimensions; relates two separate code paths exactly", "anchors": ["quantfinlib/sim/_bm.py: _path_sample_np, _nll", "quantfinlib/sim/_gbm.py: _path_sample_np, _nll", "quantfinlib/sim/_ou.py: _path_sample_np, _nll"]}
{"id": "C77", "title": "Law of simulated Brownian paths", "statement": "If the generator returns independent standard normal draws, the array of simulated values is jointly Gaussian with mean x0 + drift t, covariance cor vol vol' min(t,t') within a path and zero between paths. Hence paths are independent, increments of later steps are independent of earlier ones, the best forecast is the last value plus drift times the horizon, every k-th row of a sample with step dt has the law of a sample with step k dt, and one variate (without cor) has the law of drift t + vol B_t for every Brownian motion B. The correlation is that of the lower triangle of cor given to the constructor.", "quantifier": "every probability space and stream of draws, parameters, start values, dt >= 0, numbers of steps and paths, every Cholesky routine that factors", "why_tests_cant": "laws of infinitely many random arrays; statistical tests accept nearby laws", "anchors": ["quantfinlib/sim/_bm.py: __init__, _path_sample_np", "quantfinlib/sim/_base.py: correlated noise"]}
{"id": "C78", "title": "Law of simulated geometric paths", "statement": "Under the same assumption on the draws the logarithms of simulated prices are jointly Gaussian with mean log x0 + (drift - vol^2/2) t; prices are positive; the expected price is x0 exp(drift t) exactly if the diagonal of cor is one or vol is zero, and x0 exp((drift + (cor_jj - 1) vol^2/2) t) in general; covariances are those of correlated lognormal variables; the best forecast is the last price times exp(drift horizon); growth factors are independent of the past; the law at common times does not depend on the step.", "quantifier": "every probability space and stream of draws, positive start values, parameters, dt >= 0, numbers of steps and paths", "why_tests_cant": "expectations and laws, for all parameters", "anchors": ["quantfinlib/sim/_gbm.py: __init__, _path_sample_np"]}
{"id": "C79", "title": "Law of simulated Ornstein-Uhlenbeck paths", "statement": "Under the same assumption a simulated path with positive rates is Gaussian with the mean of the OU process; for variates with the same rate its covariance is exactly that of the OU process whatever the step, so the law at common times does not depend on dt and the best forecast decays to the mean at the rate. For correlated variates with different rates the covariance is too large by a factor above one that grows when the step is doubled, so that the law at common times depends on the step. Rates per variate can be sampled with one path only.", "quantifier": "every probability space and stream of draws, parameters with positive rates, dt > 0, numbers of steps and paths", "why_tests_cant": "exactness of a discretisation for all steps; the defect is in the law, not in any value", "anchors": ["quantfinlib/sim/_ou.py: __init__, _path_sample_np"]}
{"id": "C80", "title": "Calibration on random samples", "statement": "Simulating Brownian motion with a correlation matrix of unit diagonal and calibrating on longer and longer samples almost surely succeeds from some length on and recovers the drift, the volatilities and the correlations given to the constructor. For every fixed length the drift estimate is normal around the drift with variance vol^2/(s dt) and the squared volatility estimate is unbiased. For geometric Brownian motion volatilities and correlations are recovered but the drift estimate is centred at, and converges to, drift - vol^2/2.", "quantifier": "every probability space with independent standard normal draws, parameters, numbers of paths and variates, dt > 0, almost every outcome, every factorisation meeting its specification", "why_tests_cant": "almost sure limits over infinitely many samples; a tolerance wide enough for a Monte Carlo test hides the bias", "anchors": ["quantfinlib/sim/_bm.py: _fit_np, _path_sample_np", "quantfinlib/sim/_gbm.py: _fit_np, _path_sample_np"]}
{"id": "C81", "title": "Ornstein-Uhlenbeck calibration on random samples", "statement": "Simulating the Ornstein-Uhlenbeck model with one mean reversion rate and a correlation matrix of unit diagonal, with exp(-mrr dt) above the tolerance 1e-8, and calibrating on longer and longer samples almost surely succeeds from some length on and recovers the rate, the volatilities, the correlations and the mean of the last variate. With different rates the fitted rate is that of the last variate and every volatility of a variate with another rate converges to a wrong value. With exp(-mrr dt) below the tolerance the fitted rate is stuck at 8 log 10 / dt and the fitted mean converges to mean / (1 - 1e-8).", "quantifier": "every probability space with independent standard normal draws, parameters, start values, numbers of paths and variates, dt > 0, almost every outcome, every factorisation meeting its specification", "why_tests_cant": "almost sure limits of a regression on dependent data over infinitely many samples", "anchors": ["quantfinlib/sim/_ou.py: _fit_np, _path_sample_np, __init__"]}
{"id": "C82", "title": "CUSUM test on random prices", "statement": "On prices whose log returns are independent normal variables with mean m and deviation s > 0: the deviation estimate of the test converges almost surely to sqrt(m^2 + s^2); with m > 0 the test almost surely rejects at all times from some time on; with |m| < s, in particular without trend or with a falling trend, it almost surely rejects at infinitely many times, so that sequential monitoring has size one; a departure standardised with the true volatility is standard normal, the computed departure never is but tends to it in distribution. The same holds for paths simulated by the geometric model.", "quantifier": "every probability space with independent standard normal returns, all m, s, all times, almost every outcome; all parameters of the geometric simulator with unit diagonal correlation", "why_tests_cant": "almost sure events over infinite horizons and limits of distributions", "anchors": ["quantfinlib/feature/structural_breaks/cusumtest.py: chu_stinchcombe_white_cusum_test", "quantfinlib/sim/_gbm.py: _path_sample_np"]}
{"id": "C83", "title": "Roll measure on prices with a bid-ask bounce", "statement": "On log prices m_t + (s/2) q_t, where m is a random walk with increments e_t and the pairs (e_t, q_t) are independent and identically distributed with finite variance, the Roll measure with a growing window converges (almost surely from a fixed start, in probability at moving places) to sqrt|s^2 Var q + 2 s Cov(e, q)|. With balanced uninformed trades that is the spread s; with q = 1 or -1 in any proportion it is at most s; with trades that move the efficient price in their direction it exceeds s; the sign of the autocovariance is lost.", "quantifier": "every probability space, all laws of the increments and trade signs with finite variance, all spreads, all positions of the window", "why_tests_cant": "long-window limits of a random estimate: almost sure events over infinite samples", "anchors": ["quantfinlib/feature/micro_structure/_price_sequences.py: get_roll_measure"]}
{"id": "C84", "title": "What the volatility estimators estimate", "statement": "On open-high-low-close bars whose overnight move, high, low and close relative to the open are independent from bar to bar and identically distributed, the rolling close-to-close, high-low, Garman-Klass, Rogers-Satchell and Yang-Zhang estimates converge to the corresponding population values as the window grows. The close-to-close estimate converges to the variance of the gross return, not of the log return; the Yang-Zhang estimate to a value that exceeds that of the published estimator by 0.34/2.34 times the close-to-close variance.", "quantifier": "every probability space, all laws of bars with finite variance, all positions of the window", "why_tests_cant": "long-window limits of a random estimate: almost sure events over infinite samples", "anchors": ["quantfinlib/feature/micro_structure/_price_sequences.py: volatility estimators"]}
{"id": "C85", "title": "The high-low spread estimators do not converge", "statement": "On such bars the Corwin-Schultz spread and the Becker-Parkinson volatility do not converge to any constant as the window grows: they follow a function of the last two bars, because the two-bar range is not averaged over the window. They are consistent for a constant only if that function is almost surely constant, and there are normal prices for which it is not.", "quantifier": "every probability space, all laws of bars with finite variance, all positions of the window", "why_tests_cant": "long-window limits of a random estimate: almost sure events over infinite samples", "anchors": ["quantfinlib/feature/micro_structure/_price_sequences.py: get_cowrin_schultz_spread, get_becker_parkinson_volatility, _get_beta, _get_gamma"]}
{"id": "C86", "title": "What the price impact measures and VPIN estimate", "statement": "On independent identically distributed trades the Kyle, Amihud and Hasbrouck lambdas and VPIN converge to the mean of their terms as the window grows. Kyle's lambda finds the modulus of the price impact when there is no noise; noise unrelated to the side of the trade makes it too large, unless the noise never turns the price against the trade. VPIN from the estimated buy volume of prices with independent increments does not depend on the volumes, and is one half whenever the distribution function used is that of the increments, whatever their law.", "quantifier": "every probability space, all laws of trades for which the means exist, all positions of the window", "why_tests_cant": "long-window limits of a random estimate: almost sure events over infinite samples", "anchors": ["quantfinlib/feature/micro_structure/_strategic_trade_models.py", "quantfinlib/feature/micro_structure/_sequential_trade_models.py"]}
{"id": "C87", "title": "The law of the random covariance and correlation matrices", "statement": "_random_cov returns a matrix whose expectation is the identity divided by dim, whose trace has mean 1 and variance 1/dim^2, and which is strictly positive definite with probability one (so Cholesky factorisation and inversion succeed). The matrix of _random_cor is strictly positive definite with probability one too, but with positive probability all its diagonal entries are below 1, so it is not a correlation matrix: the regularisation of _cov_to_cor floors the standard deviations.", "quantifier": "every dimension, every probability space carrying independent standard normal draws", "why_tests_cant": "statements about the law of a random matrix in every dimension: a test sees finitely many draws and cannot see events of probability zero or tiny probability", "anchors": ["quantfinlib/math/cov.py: _random_cov", "quantfinlib/math/cov.py: _random_cor", "quantfinlib/math/cov.py: _cov_to_cor"]}
{"id": "C88", "title": "When calibration on simulated data succeeds", "statement": "Calibrating Brownian or geometric Brownian motion on a sample it generated itself succeeds with probability one exactly if the sample has at most one column or more steps than columns; with at least two columns and at most as many steps it raises LinAlgError with probability one. When it succeeds on more steps than columns, all fitted volatilities are positive with probability one and the fitted model can be simulated again from the same initial values for any number of steps and paths.", "quantifier": "all parameters accepted by the constructor with nonzero volatilities, all numbers of steps, paths and variates, all step sizes, every probability space carrying independent standard normal draws", "why_tests_cant": "an event of probability one over all draws, and a boundary in the sample size for every number of columns", "anchors": ["quantfinlib/sim/_bm.py: BrownianMotion._fit_np", "quantfinlib/sim/_gbm.py: GeometricBrownianMotion._fit_np", "quantfinlib/sim/_base.py: SimBase.path_sample"]}
{"id": "C89", "title": "Simulation with missing, infinite or non-positive starts and parameters", "statement": "No starting value or parameter value is rejected by the samplers. A Brownian or Ornstein-Uhlenbeck path started at nan or an infinity stays there for its whole length and leaves all other columns as they would be without it. A geometric path is positive throughout if it starts at a positive number, zero if it starts at zero, infinite if it starts at infinity, and nan from the first row on if it starts at a negative number, so the documented 'always positive' holds only for positive starts. A drift or volatility of nan makes all rows after the first nan in that variable only. A mean reversion rate of zero does not give a Brownian motion but nan in every row after the first. On ordinary values the model on floats coincides with the model on real numbers.", "quantifier": "all parameters, starts (numbers, nan, infinities), draws, numbers of steps, paths and variates", "why_tests_cant": "the claim covers every combination of special and ordinary values, every draw and every position in the path", "anchors": ["quantfinlib/sim/_bm.py: BrownianMotion._path_sample_np", "quantfinlib/sim/_gbm.py: GeometricBrownianMotion._path_sample_np", "quantfinlib/sim/_ou.py: OrnsteinUhlenbeck._path_sample_np", "quantfinlib/sim/_base.py: SimBase.set_x0"]}
{"id": "C90", "title": "Calibration on missing, infinite or non-positive data", "statement": "Calibrating a Brownian motion on one column with a missing or infinite value succeeds silently with a volatility of nan; sampling from the result succeeds and is nan after the first row. On several columns it raises: the ValueError about zero variance if some column has constant changes, otherwise the LinAlgError of the factorisation. The geometric calibration of one column gives numbers exactly when all values are positive or all are negative, nan otherwise; it gives the same fit for data and their negatives. The Ornstein-Uhlenbeck calibration of data on a straight line that is not flat has a slope of one and returns an infinite mean, a rate of zero and a volatility of nan. On ordinary data the model on floats coincides with the model on real numbers.", "quantifier": "all data arrays of any size whose entries are numbers, nan or infinities, all step sizes", "why_tests_cant": "all positions of the special values and all other data; equivalence with a condition on the data", "anchors": ["quantfinlib/sim/_bm.py: BrownianMotion._fit_np", "quantfinlib/sim/_gbm.py: GeometricBrownianMotion._fit_np", "quantfinlib/sim/_ou.py: OrnsteinUhlenbeck._fit_np"]}
{"id": "C91", "title": "The number of clusters returned by get_clusters", "statement": "HC.get_clusters(k) on a matrix of distances over n >= 2 points never raises and gives every point a label. With the linkage methods single, complete, average, weighted and ward it uses exactly the labels 0, ..., min(k, n) - 1 for k >= 1, the clusterings for k and k + 1 differ by exactly one merge, and for k <= 0 all points get the label 0. With centroid and median the distances can decrease and the number can be wrong: for three equidistant points get_clusters(2) can return one cluster and the silhouette rule then raises. When merges have equal distances the clusters depend on the order of the children, so on optimal_ordering.", "quantifier": "every n, every distance matrix, every linkage method, every outcome of scipy's tie breaking and ordering, every k", "why_tests_cant": "all matrices and all orders of merges; the failure needs a decreasing distance", "anchors": ["quantfinlib/clustering/hierarchical.py: HC.get_clusters", "quantfinlib/clustering/hierarchical.py: HC.linkage", "quantfinlib/clustering/hierarchical.py: optimize_n_clusters"]}
{"id": "C92", "title": "What the clusters mean", "statement": "If the rows of the linkage with a distance of at most c are n - k, then in the clustering returned by get_clusters(k): with single linkage two points share a cluster exactly when they are joined by steps of length at most c; with complete linkage all distances within a cluster are at most c and any two clusters contain points at a distance above c; with average linkage the mean distance between any two clusters is above c; with ward (the default) merging any two clusters would raise the sum of squares within clusters by more than c^2/2, and the sum of squares within the k clusters is half the sum of the squared distances of the rows merged. For points of a Euclidean space this is the sum of squared distances to the means, and the means of two clusters are at a squared distance above c^2/2 (1/a + 1/b). For the three distances of a correlation matrix the mean similarity (correlation, absolute or squared correlation) between two ward clusters is below the average of the means within them. The angular and squared angular distances of a correlation matrix are Euclidean; the absolute angular distance is not. The choice among equal distances plays no part.", "quantifier": "every n, every symmetric matrix of non-negative distances (Euclidean or not), every outcome of scipy's tie breaking, every c", "why_tests_cant": "statements about all pairs of points and all merge orders", "anchors": ["quantfinlib/clustering/hierarchical.py: HC.get_clusters", "quantfinlib/clustering/hierarchical.py: HC.linkage"]}
{"id": "C93", "title": "The exact law of the estimates on a simulated sample", "statement": "Calibrating Brownian motion on a sample it generated itself with s >= 2 steps gives drift estimates that are jointly independent of the volatility and correlation estimates; each drift estimate is normal around the drift with variance vol^2/(s dt); (s-1) times the squared volatility estimate over the squared volatility has the chi-square distribution with s-1 degrees of freedom; the squared volatility is unbiased with variance 2 vol^4/(s-1), and its relative error is at least eps with probability at most 2/((s-1) eps^2), whatever the step size; the volatility itself is too small on average. Geometric Brownian motion obeys the same with drift - vol^2/2 in place of the drift.", "quantifier": "every probability space with independent standard normal draws, all parameters, numbers of paths and variates, steps s >= 2, dt > 0, all factorisations", "why_tests_cant": "a joint law of continuous random variables for every sample size; a Monte Carlo test sees neither independence nor a small bias", "anchors": ["quantfinlib/sim/_bm.py: _fit_np, _path_sample_np", "quantfinlib/sim/_gbm.py: _fit_np, _path_sample_np"]}
{"id": "C94", "title": "Indicators and microstructure features respect the labels of their series", "statement": "A function of several price, volume or trade series keeps the common index of its arguments and its values do not depend on the labels; arrays behave like series labelled 0, 1, ...; an order-preserving change of labels changes nothing else. Time series with different times give a time series with increasing times, all taken from the arguments, and every value is computed from what is known at its time. This covers high-low, Garman-Klass, Rogers-Satchell, Yang-Zhang and Becker-Parkinson volatility, the Corwin-Schultz spread, Roll impact, VPIN, Kyle's, Amihud's and Hasbrouck's lambda, the bands of three series, and the average true range and Keltner bands of dated series. For EDGE it holds if no label is repeated.", "quantifier": "every linear order of labels, every index (unsorted or with repeated labels when it is common; increasing when it differs), all values including NaN and infinities, all windows", "why_tests_cant": "unit tests give all series one default index; alignment of different indexes depends on which labels each series has, for all of them", "anchors": ["quantfinlib/feature/micro_structure/_price_sequences.py", "quantfinlib/feature/micro_structure/_strategic_trade_models.py", "quantfinlib/feature/micro_structure/_sequential_trade_models.py", "quantfinlib/feature/indicators/_base.py: average_true_range", "quantfinlib/feature/indicators/_bands.py: GenericBands, KeltnerBands"]}
{"id": "C95", "title": "What unmatched labels do to features of several series", "statement": "High-low and Rogers-Satchell volatility, VPIN and EDGE give what they give after all arguments are extended to the sorted union of their labels with NaN. A label that one argument lacks blanks the w values from it on (Rogers-Satchell, VPIN, Kyle, Amihud, Hasbrouck). Kyle's lambda takes price changes before matching, so a price after a gap is compared with the last one quoted. The buy volume is matched by position, not by label, and raises ValueError exactly if the number of labels of prices and deviations is neither that of the volume nor one. EDGE raises ValueError for repeated labels that get estimates; otherwise an early bar with the label of a later one gets the later estimate. The average true range of series without dates puts labels that the high and low prices lack last, behind later ones.", "quantifier": "every linear order of labels, all time series (increasing labels) and for EDGE and the buy volume all common indexes, all values, all windows", "why_tests_cant": "depends on which labels are missing where, for all index combinations; tests with one default index never align anything", "anchors": ["quantfinlib/feature/micro_structure/_price_sequences.py: get_high_low_volatility, get_rogers_satchell_volatility, get_edge_spread", "quantfinlib/feature/micro_structure/_strategic_trade_models.py", "quantfinlib/feature/micro_structure/_sequential_trade_models.py: get_vpin, estimate_buy_volume", "quantfinlib/feature/indicators/_base.py: average_true_range"]}
{"id": "C96", "title": "What information measures of long samples converge to", "statement": "With a fixed number of bins and independent pairs of bounded variables that reach both ends of their ranges and put no mass on bin borders, mutual information, normalised mutual information, variation of information and its normalised form converge almost surely to Shannon's values for the variables rounded to equal cells of their true ranges; the divergence of two samples of any lengths converges to that of the cell probabilities, each variable on the cells of its own range. The limit of mutual information is zero exactly if the cells are independent. If a variable has a lower but no upper bound (prices, volumes, absolute returns) then mutual information with any fixed number of bins tends to zero whatever the dependence, even with the series itself, and variation of information of two such variables tends to zero too.", "quantifier": "every number of bins, all laws of pairs with the stated supports, almost every infinite sample", "why_tests_cant": "limits over all sample sizes and all laws; a test fixes one seed and one length, and the sample-dependent bin range makes finite samples look plausible when the limit is degenerate", "anchors": ["quantfinlib/distance/information.py:55-81", "quantfinlib/distance/information.py:84-138", "quantfinlib/distance/information.py:141-190", "quantfinlib/distance/information.py:193-224"]}
{"id": "C97", "title": "Likelihood, scores and OU calibration on data with missing, infinite or non-positive values", "statement": "On ordinary numbers the likelihoods of the three models and the OU calibration computed on floats are those of the other properties. Whether a likelihood raises depends on the shapes and the parameters, never on the data. For positive scales the Brownian and OU likelihoods are numbers exactly when all data are numbers, and the geometric one exactly when each column has only positive or only negative numbers; one missing value makes it nan, and then no comparison of scores (likelihood, AIC, BIC) between models is true. Without correlation a price of zero between positive prices makes the geometric likelihood +inf. An OU rate of zero makes the likelihood nan for all data, and with a correlation matrix it raises. OU calibration of several columns with a missing or infinite value raises LinAlgError; of one column it raises LinAlgError or returns nan for mean, rate and volatility.", "quantifier": "all shapes, all float data including nan and infinities, all parameters, every eigendecomposition and least-squares routine meeting its specification", "why_tests_cant": "tests use clean simulated paths; where special values go depends on their positions, on broadcasting and on the branch with or without correlation", "anchors": ["quantfinlib/sim/_bm.py:220-231", "quantfinlib/sim/_gbm.py:233-243", "quantfinlib/sim/_ou.py:197-253", "quantfinlib/sim/_ou.py:289-306", "quantfinlib/sim/_base.py:441-478"]}
{"id": "C98", "title": "Covariance and correlation matrices with missing or infinite entries, and without regularisation", "statement": "On numbers and a positive cov_reg the conversions, the Marchenko-Pastur fit and the denoising computed on floats are those of C34-C39. Every entry of a converted correlation matrix is nan or lies in [-1, 1]. With a positive cov_reg it is nan exactly if the covariance or one of the two variances is missing, or the covariance and one of the variances are infinite. An infinite covariance of assets with ordinary variances becomes a correlation of plus or minus one and is denoised as such. With cov_reg = 0 and a covariance matrix a correlation is a number exactly if both variances are positive. A missing eigenvalue makes the fitted variance 0. Denoising a matrix with a missing value on or below the diagonal raises, or returns nan in every place off the diagonal and the variances on it; only the entries on and below the diagonal are read, so a missing value above it has no effect.", "quantifier": "all sizes, all float matrices including nan and infinities, all numbers of time steps and factors, every eigh, svd and argsort meeting its specification", "why_tests_cant": "tests denoise clean random matrices; where a missing value ends up depends on its position and on the branches for the number of time steps and factors", "anchors": ["quantfinlib/math/cov.py:59-79", "quantfinlib/math/cov.py:82-98", "quantfinlib/math/cov.py:101-122", "quantfinlib/math/cov.py:125-158", "quantfinlib/math/cov.py:161-189", "quantfinlib/math/cov.py:253-285", "quantfinlib/math/cov.py:288-395"]}
{"id": "C99", "title": "Correlations and distances computed with 64-bit rounding", "statement": "With every operation rounded to the nearest 64-bit float (no overflow or underflow): correlation distances stay in [0, 1], keep the order of the correlations, are exact at correlations 1 and -1 (the absolute and squared ones also at 0) and differ from the exact distance by at most two units of 2^-53 of it (angular and absolute angular) or in their square by at most five units (squared angular); a distance of two floats is 0 exactly for a perfect correlation. Correlations computed from a covariance matrix stay in [-1, 1], stay symmetric and differ from the exact ones by at most five units; the diagonal is within five units below 1, and is 1 exactly if the rounded square of the rounded deviation does not exceed the variance. It is not 1 for the variance 2, and the distance functions, which compare the diagonal with 1 exactly, then raise. Converting to correlations and back changes an entry by at most ten units of the product of the deviations.", "quantifier": "all sizes, all real inputs, every rounding that is monotone, odd, idempotent, relatively accurate and exact on whole numbers and doubling, and round-to-nearest-even with 53 bits in particular", "why_tests_cant": "tests compare with tolerances on sampled matrices; the rounding error for every input and the variances with an exact unit diagonal are not sampled", "anchors": ["quantfinlib/distance/correlation.py:15-26", "quantfinlib/distance/correlation.py:29-50", "quantfinlib/math/cov.py:59-79", "quantfinlib/math/cov.py:82-98"]}
