# Formal model of sBayes: design

Source: `/repo` (derpetermann/sBayes, python).  Prover: Lean 4.33.0 + selected Mathlib modules.
Nothing of the code was run; the tie to the code is the citation (file and lines) on each
definition under `lean/Verif/Model/`.

## Layout

* `lean/Verif/Model/*.lean`  – the model: one definition per Python function (or a documented part
  of it), each with a `file:lines` citation and the simplifications made.
* `lean/Verif/Spec/*.lean`   – small independent specifications used in statements.
* `lean/Verif/Lemmas/*.lean` – helper lemmas (no claims are made about them).
* `lean/Verif/Props/*.lean`  – the property theorems (named `Cxx_...`), each with an `example`
  showing that its hypotheses are met by a concrete non-trivial case.
* `properties.jsonl`, `MANIFEST.json` – properties and their theorems (generated by `tools/gen_*.py`).
* `AXIOMS.txt` – output of `#print axioms` for every theorem named in the manifest.
* `seeded/` – wrong programs (`mutants*.py`) and what they broke (`LOG.jsonl`).

## Conventions (apply to all definitions)

* numpy arrays of fixed shape are functions on `Fin n` (or on a finite type); growing things
  (files, histories, column lists) are `List`s; strings are `List Char`.
* Floating point numbers are idealised: values are elements of `ℝ` or of an arbitrary linearly
  ordered field (so that examples compute over `ℚ`). Rounding, overflow and underflow are not modelled.
  Log-probabilities are represented by the probability itself when the code only adds/compares
  them (`-inf` ↔ 0), and by `Real.log` where the function itself is about logs.
* Every random draw is an explicit argument of the model function. Statements about distributions
  sum (discrete draws) or integrate (continuous draws: C51, C52, C80, C81) over the draws.
* Python exceptions / NaN results are explicit (`Option`), never silently totalised;
  where a division could be 0/0 the theorem carries the guard as a hypothesis.
* In-place mutation is a function returning the new value, except in `Model/Heap.lean`, where
  aliasing is the subject and arrays live in an explicit heap.
* A property that the code violates keeps its full English statement in `properties.jsonl`; the
  theorems are a `…_false` witness of the violation and a `…_partial` theorem with the exact extra
  hypothesis (or the exact value the code computes instead).

## Plan per property

| property | model | what is modelled | proof |
|---|---|---|---|
| C01–C03, C49 | `Heap` | heap of arrays; parameters as (address, shared bit, version, counters address); copy, edit, set_value, group edits | refinement to a store of independent values, induction over the op list |
| C04–C07 | `Cache` | Sample, ModelCache and its calculation nodes with versions and group versions; every public mutator | coherence invariant by induction over histories; negations by concrete history |
| C08–C12 | `Likelihood` | likelihood, component likelihoods, normalised weights, mixture and source forms | algebra over finite sums/products |
| C13–C15 | `Prior` | log_multinom, size priors, geo-prior with its aggregators and probability functions | factorials and counting of disjoint families; real analysis of exp/log |
| C16–C18, C20, C45, C50 | `Clusters` | AlterCluster, the two Gibbs-ish operators (with and without resampling of sources), neighbourhoods | case analysis, sums over draws, detailed balance |
| C19 | `MH` | Metropolis–Hastings ratio and accept rule | algebra of min(1, ratio) |
| C21–C23 | `Source` | sample_categorical, GibbsSampleSource, initial sources | inverse-CDF lemma, full conditional |
| C24–C26, C51, C52 | `Effects` | AlterWeights/AlterClusterEffect/AlterConfoundingEffects, Gibbs samplers of effects and weights, Dirichlet densities | algebra; finite-dimensional integration for stationarity |
| C27–C29, C32, C33, C53 | `MCMC` | step, run loop, logging schedule, operator choice, warm-up selection | induction over steps |
| C30, C31 | `Init` | grow_cluster_of_size_k, initial clusters/effects/weights | invariant of the growing loop |
| C54 | `Run` | initialisation and steps together | invariant over runs |
| C34–C38, C55 | `Log`, `Results` | the writers of the statistics and clusters files and the reader (`Results.from_csv_files`) | string and list induction, round trip |
| C39–C42, C56, C57 | `Data` | feature encoding, confounders, costs, states files, scale_counts | list induction |
| C58, C59 | `Tools` | the three extraction tools and the reader of priors | composition with `Data` |
| C43, C44 | `Config` | recursive defaults, path fixing, naming of output files, the run loop of the CLI | structural induction |
| C46–C48, C60, C61 | `Util` | normalize, rescaling, rounding helpers, n_smallest_distances, max-size list | arithmetic |
| C62–C64 | `Simulation` | simulated features, parameters and files | composition with `Likelihood`, `Data` |
| C65, C66 | `Posterior` | Model.__call__, Prior.__call__, model_slow | algebra; histories of `Cache` |
| C67 | `Clusters` + Spec `Membership` | compute_cluster_posterior | Bayes' rule |
| C68, C69, C77 | `Chain`, `Logged`, `Contrib` | MCMC step with real caches, last_lh/last_prior/observation_lhs bookkeeping, self-check, loggers' evaluation, single-cluster samples | simulation of the cached run by an ideal one |
| C70, C71 | `Postproc` | rank/match clusters, DIC | permutations, arithmetic |
| C72–C76 | `Plot` | burn-in, consensus graph (Gabriel graph on a given triangulation), pie grid, correspondence table, legend | list induction |
| C78, C79 | `OpStats`, `CrashLog` | operator statistics rows/files; files as sequences of OS-level writes cut at any point | round trip; induction over events |
| C80, C81 | `Draws`, `Sampler` | the Markov kernel of the whole sampler on the product of discrete and simplex-valued parameters, in both modes (with and without sources); its unnormalised posterior as a measure | measure theory: each operator's kernel keeps the measure, mixtures and compositions keep it; Dirichlet integrals for properness |
| C82 | `Clusters`, `Gibbsish` (the operators of C11–C13) | the relation "one step of the chain has positive probability" between cluster configurations | graph argument: fewest wrong objects decreases along add/remove/swap; explicit positive proposal probabilities |
| C83 | `Sampler` (as C80) | absolutely continuous probability measures invariant under `chainStep` | superlevel sets of the density of an invariant distribution can be neither entered nor left; Gibbs draws and pairwise resplits make such sets trivial in the continuous parameters (Fubini, zero-one on the simplex), C82 and the redraw of sources in the discrete ones |
| C84 | `Sampler` (as C80) | total mass of `run` on the set of states with positive posterior | mass 1 of every draw; invariance (C80) makes null sets unreachable |
| C85 | `SampleLoop` on top of `Sampler` | law of the list of logged samples; averages of bounded functions | the chain is a Markov kernel off a null set; mean ergodic theorem in L2 (von Neumann, Mathlib) for the transfer operator, fixed points are constant because sets that can be neither entered nor left are trivial (C83, also for the thinned chain since one Gibbs draw is idempotent); Chebyshev; absolute continuity of the initial distribution |
| C86 | `Validate` | list of guarantees; every setting as a function of what the file says at a path | inversion of the parser section by section; `update` by induction over the dumped dictionary |
| C87 | `Build` | the run in terms of the tables and settings (`Reflects`), when it can be set up (`Runnable`) | inversion of `build`, using the theorems of C39–C41 for the parts; C80–C85 apply by `C87_run_is_well_posed` |
| C88 | `WholeRun`, `SampleLoop`, `Sampler`, `Init` | convergence from every state satisfying `StartsWell` (Spec/Start.lean) and for a whole run with warm-up | a bounded measurable subharmonic function that vanishes almost everywhere vanishes on all allowed states (`SubharmTotal`: from any state the continuous parameters can be refreshed), hence the chain leaves every null set with probability one (`vanish`); then the ergodic theorem of C85 |
| C89 | `Sampler` (mode without sources), `SampleLoop`, `MCMC.getOperators` | uniqueness of the equilibrium and convergence of averages without source sampling, under `CanMove` (Spec/NoSource.lean); the clusters are frozen when the size is fixed | a set that the chain does not leave is trivial: every pair move refreshes the share of two entries (`ErgoAlter`), and `AlterCluster` connects all cluster configurations (C82); then `lln_law` |
| C90 | `WholeRun` (`initialSample0`, `wholeRun0`), `SampleLoop`, `Sampler` (mode without sources) | convergence without source sampling from every state satisfying `StartsWell0` (Spec/Start.lean) and for a whole run with warm-up | the chain is flattened into moves of clusters or of two entries of a row (`FlatChain`); a bounded measurable subharmonic function that vanishes almost everywhere vanishes on all allowed states (`RowHarris`: row by row, then entry by entry, the set of entries that have been re-shared is enlarged; the probability to reject is bounded away from one where both entries are bounded below, `PairBound`), then as for C88 |
| C91 | `FromPrior` (`priorOnly`, `proposePrior`, `drawSourcesPrior`, `initialSamplePrior`, `wholeRunPrior`, `wholeRunPrior0`), `SampleLoop`, `Sampler` | a run with `sample_from_prior` samples the prior: density, invariance, uniqueness, convergence of whole runs, frequencies of clusters | the run in this mode equals a run for a data set without observations and with flat cluster proposals (`emptied`, Lemmas/FromPrior.lean), to which C80–C90 apply; without sources only on states with positive weights, where the chain stays |
| C92 | `Sampler` (both modes), `WholeRun` | marginal of the posterior with sources = posterior without; whole runs in both modes have the same limits | sum over all source assignments of a product = product of sums; C88 and C90 |
| C93 | `EndToEnd` (`saveAndLoad`), `Log`, `Results`, `WholeRun`, `SampleLoop` | fractions and means computed from the loaded result files converge to posterior probabilities and means, in both modes | burn-in: the dropped prefix of a run is itself a run (`loop_take`), so its average converges too (`BurnIn`); C55 expresses the loaded results by the logged samples; C88 and C90 |
| C94 | `Parallel` (`Prog`, `step`, `finish`, `runner`, `sequential`, `pool`, `mainPool`, `experimentName`) | for every schedule, each run is as if alone; at the end all files but the log as after sequential execution; log and copied configuration complete; names equal iff same minute | simulation between the pool and a single process on the files it may read or write (`pool_alone`); invariant "the first m characters are right, m that of the process which emptied the file last" for the copy; ghost list of messages for the log |
| C95 | `Generators` (`Use`, `exec`, `oneAfterTheOther`, `fork`, `pool`, `untilFirstOperator`) | joint law of the results of the runs is the product of the laws of single runs (one process; processes with new generators); forked processes: equal numpy numbers, same first operator, independence false | strong Markov property of a sequence of independent numbers for well-founded programs, by induction on the program (`exec_fresh`), with `Measure.infinitePi` |
| C96 | `Polygon` (`getCorners` with the cache, `project`, `plotWeight`, `plotPreference`, `after`, `fillOutside`) | corners after any history of plots; samples in the convex hull; mean; injective for 3, not for ≥ 4; white areas = outside of the polygon; findings | induction on the history; convexity; trigonometry of the corners (monotone chains from the leftmost to the rightmost corner), supporting half-planes; rank of a linear map |
| C97 | `PlotMain` (`shouldBePlotted`, `plotModel`, `plotModels`, `main`, `settings`, `plotMap`), with `setDefaults` of C43 | set of plots made, each once; settings; findings | induction on the models, `get_setDefaults` |
| C98 | `PlotMain` (`stem`, `modelName`, `filePairs`, `iterateOverModels`, `plotDic`) | pairs are the files of the same run; names; values of the DIC plot; findings | order of paths is the order of (directory, name) for a fixed prefix; sorting is determined by the order |
| C99 | `WholeMap` (`getExtent`, `clusterColors`, `addLabels`, `legendTexts`, `mapTable`, `posteriorMap`), with `clustersToGraph` of C73 and `tableEntries` of C75 | all parts of the picture from the samples; same colour in all parts; findings | decomposition of the map into its parts; counting of samples for disjoint clusters; the theorems of C73 and C75 |
| C100 | `Reordering` (specification), the posterior of C80 (`Posterior.posterior`, `Kernel.target`), `wholeRun`, `wholeRun0` | same posterior for the same parameters; the image of the posterior distribution; limits of whole runs | reindexing of all sums and products; minimum spanning trees mapped; Gamma variables permuted; C88 and C90 |
| C101 | `simulateWeights`, `simulateEffects`, `runSimulation` (measures), `simulateFeatures` of C62, the posterior of C80 | joint law of parameters and data; conditional law = posterior; calibration of credible sets | C62 for given parameters, Dirichlet densities w.r.t. the uniform distribution on the simplex, sum over the data sets, C92 for sources |
| C102 | `SimConfig.loadConfigSimulation`, `statesPerFeature`, `writtenFile` with the default configuration | user values kept, defaults filled in, required fields; default shares stay for states not named (counterexample); path of the files (counterexample without a path) | C43 for nested dictionaries; case analysis of the defaults; C63 |
| C103 | `Rounding.Arith`, `Sums` (any order of summation), floating point versions of the functions of C08-C11, source prior and MH ratio | distance to the exact model of C09-C11 | induction over the summation tree; calculus of relative errors; Lebesgue measure of the draws where decisions differ |
| C104 | `Rounding.cumsum`, `sampleCategorical`, `sourceLaw`; doubles (`IsDouble`, `Nearest`) | zero-probability components other than the first never drawn; probability that the draw differs; counterexample in doubles | case analysis of argmax; union bound over the cumulative sums; doubles in a binade are multiples of the ulp |
| C105 | `Double.Rounding` (nearest double, ties open), `memberLh`, `clusterPosterior`, `pRemove`, `pAdd`, `shrink`, `grow` of AlterClusterGibbsish in doubles | probabilities are numbers that add up to 1; counterexamples in doubles | doubles are closed under rounding; monotonicity of rounding; relative error bounds for the sum |
| C106 | `Double.growLogQ`, `propose2` (AlterClusterGibbsish2), `accepts` (mcmc.py:342-352) with logarithms that can be -inf or nan | never accepted / decided by a real comparison | propagation of -inf and nan through sums; gaps between doubles near 1 |
| C107 | `Build.build` (skeleton, grow_to_adjacent), `wholeRun`, `alterCluster`; `Settings.clusterMCMC`, `clusterMCMCWarmup` (sbayes_sampling.py:29-77, 347-489) | same run / same distribution / strict monotonicity | independence of the setting; closed form of the proposal probability; edge counts of trees |
| C108 | `Missing.readGeoCostMatrix`, `Missing.geoPrior` with cells fin/inf/nan (preprocessing.py:382-408, util.py:322-335, prior.py:622-658) | any minimum spanning forest of the graph of given costs | forest = tree for given costs; uniqueness of a forest in an acyclic graph; transport of forests along the embedding of the other objects |
| C109 | `convertPrior` (convert_prior_csv_to_json.py:18-32) with `parseConcentration` (prior.py:143-170) | spec `CountsCsv.Gives`: number in the last row of the feature and the column of the state | induction over cells and rows, dictionary look-up |
| C110 | `setupText` (mcmc_setup.py:39-55, model.py:74-83, prior.py:90-99, 244-255, 294-296, 341-343, 419-421, 537-552) over the validated configuration of C86 | the text is a list of lines; equal texts give equal lines, lines give the settings back | splitting at line breaks; cancellation of prefixes; separation of the blocks of confounders by their first characters |
| C111 | `likelihoodFile` (loggers.py:36-48, 253-280, mcmc_setup.py:102-120): the table of the HDF5 file (fixed width, append raises on another width), on top of Model/Logged | `ObservationLh`, runs with their log (Spec/LikelihoodFile) | invariant over runs: the attributes of the sample belong to its parameters; shape of the raveled selection for one-hot sources |
| C112 | `template` (config_template.yaml:1-70) with entries for the placeholders, over the validation of C86 | `Complete`, `minimal`, `requiredPaths`, `optionalPaths` (Spec/Template) | computation of each section; inversion of accepted configurations |
| C113 | `loadConfig`, `convertConfig`, `defaults` (plot.py:102-148, default_config_plot.json) over `setDefaults` of C43 | `Same`, `resolved`, paths of settings (Spec/PlotConfig), `Val.at`, `Open`, `Blocked` (Spec/Config) | C43 for the merge; lemmas on assignment below a path |
| C114 | `SampleLoop`, `WholeRun`, `WholeRun0`, `Sampler` | all prefixes of the log from the n0-th sample on, bound uniform in the length of the run | law of the path (`pathKer`); maximal inequality of Hopf/Garsia (`maximal`); the centred function is a difference g - Pg plus a function of small mean modulus (`split_small`, from the mean ergodic theorem); second moments of sums of differences grow linearly, Chebyshev at squares (`far_at_squares`); null sets are left as in C88 (`strong_point`) |
| C115 | `Sampler`, `Posterior`, `WholeRun`, `WholeRun0` | image of the posterior under a permutation of clusters and effects; fractions of samples per cluster number | C12 for each factor (`posterior_swap`), the reference measure is symmetric (`contRef_swap`), change of variables (`target_swap`); disjoint clusters give 1/K (`share_le`); C114 |
| C116 | `FromPrior`, `Prior`, `WholeRun`, `WholeRun0` | `admissibleSizes` (Spec/Sizes) | C91 for the set of clusterings with the given sizes (`mass_of_event`), C14 for its mass, summation over all size vectors for the constant (`sizes_prior`) |
| C117 | `FromPrior`, `Prior`, `WholeRun`, `WholeRun0` | `Valid` (Spec/Clusters) | C91 for the set of clusterings with the given property (`mass_of_event`), the prior is constant on valid clusterings (`area_prior`) |
| C118 | `FromPrior`, `Prior`, `WholeRun`, `WholeRun0` | `quadraticWeight` (Spec/Sizes) | C91 for a single clustering, the exponential of the size prior is the product of 1/size² (`exp_quadratic`) |
| C119 | `FromPrior`, `Prior`, `Draws`, `WholeRun`, `WholeRun0` | `uniformParams` (Spec/FreeParams) | C91 for the set of states with these weights and effects; the prior density does not depend on them (`dens_rest`), Tonelli over the product of simplices (`mass_free`) |
| C120 | `FromPrior`, `Prior`, `Draws`, `WholeRun`, `WholeRun0` | `priorParams` (Spec/FreeParams), `clusterPrior` | C91 for the set of states; the prior density is, up to a constant, the product density of the Dirichlet laws (`confPrior_dens`, `priorParams_dens`), Tonelli (`mass_full`) |

No property was classed as not applicable. Parts of properties that no model here can express (floating-point
rounding, HDF5 contents, matplotlib's drawing) are named in the manifest notes.

## Trusted base

* Lean 4.33.0's kernel, and Mathlib's definitions as far as they occur in statements (ℝ, EReal/ENNReal,
  finite sums, measures and `lintegral`, `Real.Gamma`, permutations).
* Axioms: at most `propext`, `Classical.choice`, `Quot.sound` for every theorem (see `AXIOMS.txt`, one line per
  manifest theorem). No axioms were added; no `native_decide`/`bv_decide`.
* The reading of the Python code: the correspondence between each definition and the cited lines is by
  inspection only.
* Library contracts assumed (each named at the definition that uses it): numpy elementwise arithmetic,
  broadcasting and `argsort` (any sorting permutation), `np.random`/`random` draws have their documented
  laws, scipy's Dirichlet/categorical densities and Delaunay triangulation (an arbitrary symmetric
  loop-free graph), pandas' reading of a comma/tab-separated file, `linear_sum_assignment`/`permutations`
  (a best permutation), the text-file buffering of CPython.

### Not modelled

Floating-point rounding outside of C103-C105 (all other models use exact real or rational arithmetic); `numba`/`jit` and performance; HDF5 likelihood files; matplotlib, cartopy and
geopandas rendering, projections; the pool of processes itself (C94 and C95 model its runs under any schedule, with
fork or spawn); logging of messages; randomness of the generators themselves; memory and time limits.

## Disagreements between the code and what a user would expect (all with a Lean witness unless marked *)

* C02: `set_value` on a grouped copy leaves the group counters shared between copies.
* C05/C07/C66/C68/C69: whole-array `edit()` does not bump group versions; the geo-prior's cache node has
  no inputs, so the cached geo-prior is stale, the self-check fails when sampling from the prior, and the geo-prior
  has no influence on a run with caching after the self-checks end.
* C15: the mean aggregator drops zero-cost edges.
* C29: the chain-level acceptance rate divides by logged samples.
* C35/C38: no clusters reads back as one cluster; names with `_` are not recovered.
* C39/C41/C56/C58/C59: state tables with gaps, nearly symmetric cost files, sites without an entry,
  white-space cells, empirical priors with 1 too much concentration.
* C44: `custom_settings` of `cli.main` do not reach the runs.
* C47/C48: `linear_rescale`, `round_int`, `round_multiple_ints`.
* C67: missing features count as likelihood 0 in the proposal distribution of the Gibbs-ish operators.
* C70/C71: `match_clusters` raises always; sign error in the DIC.
* C72/C74/C76: burn-in discarded twice; pie grids with a single row/column; legend not sorted with the likelihoods.
* C78/C79: operator rows with equal names; the operator statistics can be lost in a crash.
* C94/C95: default experiment names have a resolution of one minute; forked processes share the state of numpy's generator.
* C96/C97/C98: labelled preference plots change the cached corners; `weights_plot`/`weight_plot`; several thresholds; files paired by
  position; number 0 chooses the last model.
* C102/C104/C105: simulation defaults; an object outside of all clusters can draw the cluster effect as a source; certain clusters and
  many features make the Gibbs-ish operators raise a ValueError in double precision; C106: objects that fit best are never added.
* C107: `skeleton` is never used, `grow_to_adjacent` has no effect with source sampling, and `ClusterMCMCWarmup` sets its limits after the
  operators were built.
* C108: empty cells and `inf` in the cost file are no edges of the cost graph: unreachable objects are cost-free, and a cluster without
  any usable cost has the maximal geo-prior; empty cells are accepted without notice.
* C109: a feature with two rows in a table of prior parameters is not reported; the last row replaces the others.
* C110: experiment.log shows neither the parameters of Dirichlet priors nor `sample_from_prior`.
* C112: the template cannot be used after replacing `<REQUIRED>` only; every line that says `<OPTIONAL>` makes the program refuse it.
* C113: a map is not drawn in the projection of the data by default; plot settings without input files are accepted, and a single path not in a list is read as one file per character.
* \* Not given a Lean witness: a missing `raise` at prior.py:467 (`diameter_based` geo-priors raise AttributeError: see C87).
