{"id": "C01", "title": "Samples that were copied from each other are independent values", "statement": "Reading the value or the version of any parameter of a sample returns what the last mutation applied to *that* sample's parameter left there, no matter how many copies were taken from it or it was taken from, and no matter which of the copies were mutated, in which order, by item assignment, whole-value replacement (with an array nobody else holds), `with edit()` or `with edit_group()`, and also when the body of an edit raises.", "quantifier": "all finite families of parameters, all finite interleavings of copy / set_value / set_items / edit / edit_group / aborted edits on them, all array contents", "why_tests_cant": "The copy-on-write flag is one bit shared by an unbounded tree of copies; a test fixes one tree and one interleaving.", "anchors": ["sbayes/sampling/state.py: ArrayParameter.copy, resolve_sharing, set_items, edit, set_value; GroupedParameters.edit_group"]}
{"id": "C02", "title": "Change-tracking of groups is independent between copies", "statement": "The per-group change counters of a parameter are only altered by mutations of that parameter, never by a mutation of a copy.", "quantifier": "same histories as C01", "why_tests_cant": "Needs a particular interleaving of replacement and group edits on two copies to show up; false in general (whole-value replacement drops the sharing flag without unsharing the counters).", "anchors": ["sbayes/sampling/state.py: GroupedParameters.set_value (inherited), edit_group, resolve_sharing"]}
{"id": "C03", "title": "Version numbers count completed mutations", "statement": "After any history, the version of a parameter equals its version at creation/copy plus the number of completed mutations applied to it; hence it never decreases, a read or a copy never changes it, and two reads with equal versions separated only by completed mutations on that parameter see the same value.", "quantifier": "all histories of operations on a parameter", "why_tests_cant": "A counting statement about unbounded histories.", "anchors": ["sbayes/sampling/state.py: Parameter.set_value, ArrayParameter.set_items/edit, GroupedParameters.edit_group"]}
{"id": "C04", "title": "The cached likelihood always equals the likelihood recomputed from scratch", "statement": "Whatever sequence of cluster membership changes, group-wise effect changes, weight changes, source changes, copies and evaluations (with or without caching) preceded it, evaluating the likelihood of a sample with caching gives the same per-observation likelihoods as evaluating it without caching on a freshly built sample with the same values, provided the clusters are pairwise disjoint whenever the likelihood is evaluated.", "quantifier": "all histories over a sample, all data sets, all numbers of clusters / confounders / groups, all initial (uninitialised) buffer contents", "why_tests_cant": "The cache is incremental per group: an error needs a history in which a group is changed, evaluated, copied, changed back ... ; the shipped run-time check only samples every tenth of the first thousand steps.", "anchors": ["sbayes/sampling/state.py: CalculationNode, HasComponents, ModelCache, Sample.copy", "sbayes/model/likelihood.py: Likelihood.__call__, update_component_likelihoods, compute_component_likelihood, update_weights"]}
{"id": "C05", "title": "Likelihood caching is also sound under every public mutator of grouped parameters", "statement": "C04 for histories that additionally use whole-array `edit()` or `set_value()` on clusters or effects (which the library's own error message recommends).", "quantifier": "all histories with all public mutators", "why_tests_cant": "False: the negation is proved with a concrete history; the partial theorem excludes exactly these two mutators.", "anchors": ["sbayes/sampling/state.py: GroupedParameters, CalculationNode.what_changed"]}
{"id": "C06", "title": "Cached prior terms equal the recomputed prior terms", "statement": "Evaluating the cluster-size prior, the confounding-effect prior and the source prior with caching gives the value they have when recomputed, after every history as in C04.", "quantifier": "all histories as in C04", "why_tests_cant": "Same as C04.", "anchors": ["sbayes/model/prior.py: ClusterSizePrior.__call__, ConfoundingEffectsPrior.__call__, SourcePrior.__call__", "sbayes/sampling/state.py: ModelCache"]}
{"id": "C07", "title": "The cached geo-prior equals the recomputed geo-prior", "statement": "Evaluating the geo-prior with caching gives the value obtained when it is recomputed for the current clusters.", "quantifier": "all histories as in C04", "why_tests_cant": "False for the cost-based geo-prior: its cache node has no inputs, so it is never considered outdated; negation witness plus partial theorem for the uniform prior and for histories that do not change clusters after the first evaluation.", "anchors": ["sbayes/model/prior.py: GeoPrior.__call__", "sbayes/sampling/state.py: ModelCache.__init__"]}
{"id": "C08", "title": "Normalised mixture weights form a distribution over the available components", "statement": "For each object and feature the normalised weights are non-negative, sum to one, vanish on components that do not apply to the object and keep the ratios of the raw weights on the others, provided some applicable component has positive weight.", "quantifier": "all weight matrices, all availability patterns, all sizes", "why_tests_cant": "Real-valued inputs of any shape.", "anchors": ["sbayes/model/likelihood.py: normalize_weights"]}
{"id": "C09", "title": "Component likelihoods are determined by the group an object belongs to", "statement": "For pairwise disjoint groups, recomputing all groups yields, for each object and feature, the probability of the observed state in the object's group, 0 for objects in no group, and 1 for missing observations; the result depends neither on the previous buffer content nor on the order in which the set of changed groups is traversed.", "quantifier": "all data, groups, probabilities, buffers and traversal orders", "why_tests_cant": "Set iteration order and np.empty contents are arbitrary.", "anchors": ["sbayes/model/likelihood.py: compute_component_likelihood, update_component_likelihoods"]}
{"id": "C10", "title": "Summing out the latent sources gives the mixture likelihood", "statement": "The sum, over all one-hot source assignments, of (prior probability of the sources given the weights) times (likelihood given the sources) equals the likelihood that is computed when sources are not sampled.", "quantifier": "all component likelihoods and weights, all numbers of observations and components", "why_tests_cant": "Exponentially many assignments, real-valued inputs.", "anchors": ["sbayes/model/likelihood.py: Likelihood.get_observation_lhs", "sbayes/model/prior.py: SourcePrior"]}
{"id": "C11", "title": "Missing observations do not influence the likelihood", "statement": "With normalised weights a missing observation contributes the factor 1, so the likelihood equals the likelihood of the observed entries alone and is independent of the effects at missing entries, in both source modes.", "quantifier": "all data sets with any pattern of missing values", "why_tests_cant": "All patterns.", "anchors": ["sbayes/model/likelihood.py: update_component_likelihoods (na_features), get_observation_lhs"]}
{"id": "C12", "title": "Cluster labels are exchangeable", "statement": "Permuting the clusters together with their effects leaves the likelihood, the size prior, and the cost-based geo-prior unchanged.", "quantifier": "all permutations, all samples", "why_tests_cant": "All permutations of all samples.", "anchors": ["sbayes/model/likelihood.py", "sbayes/model/prior.py: ClusterSizePrior, GeoPrior"]}
{"id": "C13", "title": "log_multinom is the log of the number of arrangements", "statement": "For sizes k_1..k_m with sum at most n, exp(log_multinom(n, k)) is n!/(k_1!...k_m!(n-sum k)!), the number of ways to choose pairwise disjoint subsets of sizes k_i in order; the value is symmetric in k, and log_binom is the two-class case.", "quantifier": "all n and all size lists", "why_tests_cant": "Unbounded naturals.", "anchors": ["sbayes/util.py: log_multinom, log_binom"]}
{"id": "C14", "title": "The uniform-size prior gives every cluster-size vector the same mass", "statement": "Under `uniform_size` the prior mass, summed over all ways to place disjoint clusters with given sizes, is the same constant for each size vector that fits.", "quantifier": "all numbers of objects and clusters and all size vectors", "why_tests_cant": "A counting argument over exponentially many cluster configurations.", "anchors": ["sbayes/model/prior.py: ClusterSizePrior.__call__", "sbayes/util.py: log_multinom"]}
{"id": "C15", "title": "The geo-prior is neutral at zero cost and decreases with cost", "statement": "Each distance-to-log-probability function maps cost 0 to 0, is strictly decreasing, never positive for non-negative costs; hence increasing a single edge cost can only lower the prior for every aggregation policy; the prior does not depend on which minimum spanning tree is chosen when there are several.", "quantifier": "all costs, rates, inflection points and policies", "why_tests_cant": "Real parameters.", "anchors": ["sbayes/model/prior.py: GeoPrior"]}
{"id": "C16", "title": "Growing or shrinking a cluster keeps the cluster constraints", "statement": "Every proposal of the cluster operators changes the membership of objects in only one cluster, moves no object that belongs to another cluster, keeps clusters pairwise disjoint and keeps every cluster size within the configured minimum and maximum; a proposal that would violate a bound is returned as a rejection with the unchanged sample.", "quantifier": "all samples that satisfy the constraints, all random draws, all neighbourhood graphs", "why_tests_cant": "Random draws times states.", "anchors": ["sbayes/sampling/operators.py: AlterCluster, AlterClusterGibbsish, AlterClusterGibbsish2"]}
{"id": "C17", "title": "The transition probabilities reported by AlterCluster are the real ones", "statement": "The forward probability reported for a proposal equals the total probability of the random choices that lead to the proposed clusters, and the reported backward probability equals the forward probability the same operator has for the reverse move.", "quantifier": "all samples, all draws, all graphs, all p_grow_connected in [0,1]", "why_tests_cant": "The Hastings correction must match a distribution, not an outcome.", "anchors": ["sbayes/sampling/operators.py: AlterCluster.grow_cluster, shrink_cluster", "sbayes/util.py: get_neighbours"]}
{"id": "C18", "title": "AlterCluster steps leave the posterior invariant", "statement": "The Markov kernel made of an AlterCluster proposal followed by the Metropolis-Hastings acceptance satisfies detailed balance with respect to any positive target over constrained cluster configurations, so the target is stationary.", "quantifier": "all positive targets, graphs, bounds, numbers of clusters/objects", "why_tests_cant": "A statement about a distribution over all pairs of states.", "anchors": ["sbayes/sampling/operators.py: AlterCluster", "sbayes/sampling/mcmc.py: MCMC.step, metropolis_hastings_ratio"]}
{"id": "C19", "title": "The acceptance rule makes any correctly reported proposal reversible", "statement": "For every finite proposal kernel whose reported forward/backward masses are its real ones, accepting with the implemented rule yields a kernel in detailed balance with the (tempered) posterior.", "quantifier": "all finite state spaces, proposals and targets", "why_tests_cant": "Distributional statement.", "anchors": ["sbayes/sampling/mcmc.py: MCMC.step, metropolis_hastings_ratio"]}
{"id": "C20", "title": "The Gibbs-ish cluster operators report the probability of what they propose", "statement": "Same as C17 for AlterClusterGibbsish and for the all-at-once variant.", "quantifier": "all samples, draws and posterior inclusion probabilities", "why_tests_cant": "As C17.", "anchors": ["sbayes/sampling/operators.py: AlterClusterGibbsish.grow_cluster/shrink_cluster, AlterClusterGibbsish2"]}
{"id": "C21", "title": "Each observation is attributed to exactly one applicable component", "statement": "In source-sampling mode, after initialisation and after every accepted or rejected operator step, each (object, feature) has exactly one source component, and it is a component that applies to the object (never 'cluster' for an object outside of all clusters).", "quantifier": "all histories of operator steps and all draws", "why_tests_cant": "Histories.", "anchors": ["sbayes/sampling/operators.py: GibbsSampleSource, ObjectSelector, propose_new_sources", "sbayes/preprocessing.py: sample_categorical"]}
{"id": "C22", "title": "Categorical sampling is the inverse CDF", "statement": "sample_categorical selects exactly one category, never one of zero probability, and category k is selected for exactly the uniform draws in an interval of length p_k.", "quantifier": "all probability vectors and all draws in [0,1)", "why_tests_cant": "Continuum of draws; boundary cases.", "anchors": ["sbayes/preprocessing.py: sample_categorical"]}
{"id": "C23", "title": "Resampling sources is a Gibbs step", "statement": "The distribution from which a new source is drawn is the full conditional: proportional to normalised weight times component likelihood; the resulting kernel leaves the joint posterior of the sources invariant.", "quantifier": "all weights and likelihoods, all subsets of objects", "why_tests_cant": "Distributional.", "anchors": ["sbayes/sampling/operators.py: GibbsSampleSource"]}
{"id": "C24", "title": "Weights stay on the simplex", "statement": "Every proposal of every weight operator keeps each feature's weights non-negative with sum one, whatever is drawn and whichever features are accepted.", "quantifier": "all weights, all draws, all acceptance patterns, all histories", "why_tests_cant": "Histories of real draws.", "anchors": ["sbayes/sampling/operators.py: AlterWeights, GibbsSampleWeights"]}
{"id": "C25", "title": "Effect moves only redistribute mass between two applicable states", "statement": "A Dirichlet step on a cluster or confounding effect changes two applicable states of one feature of one group, keeps their total mass, and leaves everything else as it was; effects stay distributions supported on the applicable states.", "quantifier": "all effects, draws, groups, features", "why_tests_cant": "Real draws.", "anchors": ["sbayes/sampling/operators.py: DirichletOperator, AlterClusterEffect, AlterConfoundingEffects"]}
{"id": "C26", "title": "Gibbs sampling of effects uses the conjugate posterior", "statement": "The Dirichlet parameters from which a cluster/confounding effect is resampled are prior concentration plus the number of observations attributed to that group and state, and prior density times likelihood of the attributed observations is proportional to the density of that Dirichlet.", "quantifier": "all data, sources, groups, concentrations", "why_tests_cant": "Algebraic identity over all shapes.", "anchors": ["sbayes/sampling/operators.py: GibbsSampleClusterEffect, GibbsSampleConfoundingEffects"]}
{"id": "C27", "title": "An MCMC step accepts or rejects as a whole and keeps its books", "statement": "After a step the current sample is either the old or the proposed sample; the chain's remembered log-likelihood and log-prior are those of the current sample; the number of accepts plus rejects of an operator equals how often it was used; the total number of accepts is the sum of the operators' accepts.", "quantifier": "all histories of steps, all operators, all evaluations", "why_tests_cant": "Histories.", "anchors": ["sbayes/sampling/mcmc.py: MCMC.step, generate_samples"]}
{"id": "C28", "title": "A run writes exactly the requested number of samples, evenly spaced", "statement": "With steps a positive multiple of samples (and steps > 1), exactly `samples` rows are written, the k-th (from 0) being the state right after step number k*steps/samples+1, and the state after the last step is kept as the result to resume from.", "quantifier": "all step and sample counts", "why_tests_cant": "Unbounded counts.", "anchors": ["sbayes/sampling/mcmc.py: generate_samples", "sbayes/config/config.py: MCMCConfig.validate_sample_spacing"]}
{"id": "C29", "title": "The reported acceptance rate is a fraction of the steps", "statement": "The acceptance rate shown for the chain lies in [0,1].", "quantifier": "all runs", "why_tests_cant": "False: it divides accepted steps by logged samples; negation witness and partial bound.", "anchors": ["sbayes/sampling/mcmc.py: MCMCStats, print_screen_log"]}
{"id": "C30", "title": "Initial clusters are disjoint, connected and of the configured size", "statement": "If cluster initialisation returns, all clusters are pairwise disjoint, each newly grown one has exactly the requested size and is connected in the neighbourhood graph, and clusters taken over from a previous run are kept.", "quantifier": "all graphs, sizes, random draws", "why_tests_cant": "Graphs and draws.", "anchors": ["sbayes/sampling/sbayes_sampling.py: generate_initial_clusters, grow_cluster_of_size_k"]}
{"id": "C31", "title": "Initial effects and weights are distributions", "statement": "The effects generated from counts are, per group and feature, non-negative, sum to one and put mass only on the applicable states; the initial weights of each feature sum to one.", "quantifier": "all data sets and group assignments", "why_tests_cant": "All data.", "anchors": ["sbayes/sampling/sbayes_sampling.py: generate_initial_*_effect(s), generate_initial_weights"]}
{"id": "C32", "title": "Operators are chosen with the configured relative frequencies", "statement": "The normalised operator weights are non-negative, sum to one and keep the configured ratios.", "quantifier": "all operator configurations with a positive total", "why_tests_cant": "Real inputs.", "anchors": ["sbayes/sampling/mcmc.py: normalize_operator_weights, choose_operator", "sbayes/sampling/sbayes_sampling.py: get_operators"]}
{"id": "C33", "title": "Warm-up continues from a best chain", "statement": "The sample returned from warm-up has a posterior at least as high as every other warm-up chain's final sample.", "quantifier": "all numbers of chains and all chain states", "why_tests_cant": "All ties and orders.", "anchors": ["sbayes/sampling/mcmc.py: MCMC.generate_samples warm-up part / sbayes_sampling.py"]}
{"id": "C34", "title": "Statistics file: each row has exactly the header's columns, in the header's order", "statement": "Whatever sequence of samples is logged, the stats file consists of one header and one row per sample; each row has the same number of fields as the header and the field under a (unique) column name is the value of that quantity.", "quantifier": "all sample sequences, names, sizes", "why_tests_cant": "Names and shapes are unbounded.", "anchors": ["sbayes/sampling/loggers.py: ParametersCSVLogger"]}
{"id": "C35", "title": "Cluster encoding round-trips", "statement": "Decoding an encoded cluster gives back the cluster; decoding a line of the clusters file gives back all clusters of the sample, and reading the whole file gives the clusters of all samples, cluster-major.", "quantifier": "all boolean arrays, all numbers of clusters and samples", "why_tests_cant": "All inputs.", "anchors": ["sbayes/util.py: encode_cluster, decode_cluster, format_cluster_columns, parse_cluster_columns", "sbayes/results.py: Results.read_clusters"]}
{"id": "C36", "title": "Logged clusters are matched by the best permutation", "statement": "The relabelling applied to a sample maximises the total agreement with the accumulated clusters over all permutations; both output files use the same relabelling for the same sample.", "quantifier": "all samples, all permutations, all histories", "why_tests_cant": "n! permutations and history-dependence.", "anchors": ["sbayes/util.py: get_best_permutation", "sbayes/sampling/loggers.py"]}
{"id": "C37", "title": "Burn-in drops the same samples from clusters and parameters", "statement": "After loading results with a burn-in fraction, the i-th remaining cluster sample and the i-th remaining parameter row come from the same logged sample, and the number dropped is floor(fraction*n).", "quantifier": "all n and fractions", "why_tests_cant": "All sizes.", "anchors": ["sbayes/results.py: drop_burnin"]}
{"id": "C38", "title": "Group, feature and state names survive the column names", "statement": "Feature and state names and confounder groups recovered from the stats header are those the logger wrote.", "quantifier": "all names", "why_tests_cant": "False for names containing '_'; negation witness and partial theorem under a decidable condition on names.", "anchors": ["sbayes/results.py: get_groups_by_confounder, extract_features_and_states", "sbayes/sampling/loggers.py: write_header"]}
{"id": "C39", "title": "Feature encoding is one-hot and invertible", "statement": "Each non-missing feature value is encoded by exactly one 1, at the position of its state, a missing value by all zeros, and the encoding of a value can be mapped back to it; the number of missing values is reported correctly; applicable-state flags match the positions in use.", "quantifier": "all data tables and state tables", "why_tests_cant": "Partly false (interior gaps in the states table); negation witness and partial theorem.", "anchors": ["sbayes/util.py: encode_states"]}
{"id": "C40", "title": "Confounder groups partition the objects they apply to", "statement": "Each object is assigned to exactly one group (the one named in the data) or, if its entry is missing, to no group; for a universal confounder to the single group <ALL>.", "quantifier": "all data tables", "why_tests_cant": "All data.", "anchors": ["sbayes/load_data.py: Confounder.from_dataframe"]}
{"id": "C41", "title": "Costs are assigned to the right pairs of objects and are symmetric", "statement": "The loaded geo-cost matrix is symmetric, and its (i,j) entry is the (mean of the two) cost(s) given for objects i and j, whatever order the file lists the objects in.", "quantifier": "all matrices and permutations", "why_tests_cant": "All orders.", "anchors": ["sbayes/util.py: read_geo_cost_matrix / load_data.py"]}
{"id": "C42", "title": "Rescaling counts never increases them and caps their total", "statement": "After scale_counts each row sums to at most the limit; rows below are unchanged, others are scaled proportionally to exactly the limit.", "quantifier": "all count arrays", "why_tests_cant": "Real inputs.", "anchors": ["sbayes/util.py: scale_counts"]}
{"id": "C43", "title": "Defaults never overwrite user settings", "statement": "Filling in defaults keeps every value the user gave, adds exactly the missing keys at every nesting level, and is idempotent; recursive updates take the update's value where present and keep the rest.", "quantifier": "all nested configurations", "why_tests_cant": "Unbounded nesting.", "anchors": ["sbayes/util.py: set_defaults, update_recursive, iter_items_recursive"]}
{"id": "C44", "title": "The command line runs each (number of clusters, run) pair once, into its own files", "statement": "Every pair of configured number of clusters and run index is executed exactly once and the output file names of different pairs differ.", "quantifier": "all lists of cluster numbers without repetition, all numbers of runs", "why_tests_cant": "All lists; string injectivity.", "anchors": ["sbayes/cli.py: main", "sbayes/mcmc_setup.py: sample, result paths"]}
{"id": "C45", "title": "Neighbourhood queries return free adjacent objects", "statement": "get_neighbours returns exactly the unoccupied objects outside the cluster adjacent to one of its members.", "quantifier": "all graphs, clusters", "why_tests_cant": "All graphs.", "anchors": ["sbayes/util.py: get_neighbours"]}
{"id": "C46", "title": "normalize yields a distribution", "statement": "normalize(x) is non-negative, sums to one along the axis and keeps ratios, for non-negative x with positive sum.", "quantifier": "all arrays", "why_tests_cant": "Real inputs.", "anchors": ["sbayes/util.py: normalize"]}
{"id": "C47", "title": "Linear rescaling maps the old range onto the new one", "statement": "linear_rescale maps old_min to new_min and old_max to new_max and is monotone.", "quantifier": "all ranges and values", "why_tests_cant": "False: it adds old_max instead of new_min ... ; negation witness and partial theorem.", "anchors": ["sbayes/util.py: linear_rescale"]}
{"id": "C48", "title": "Rounding helpers round in the requested direction", "statement": "round_single_int(n,'up') is a multiple of the granularity at least n, 'down' at most n; round_int with mode 'up'/'down' and offset behaves likewise.", "quantifier": "all numbers", "why_tests_cant": "Partly false; negation witness.", "anchors": ["sbayes/util.py: round_single_int, round_int"]}
{"id": "C49", "title": "Parameter arrays are write-protected outside edit blocks", "statement": "As long as no operation raised, the array returned by a parameter's `value` is read-only, so state cannot be changed behind the version counter.", "quantifier": "all histories of operations that return normally", "why_tests_cant": "Histories; the flag is toggled on shared arrays.", "anchors": ["sbayes/sampling/state.py: ArrayParameter.__init__, set_value, set_items, edit; GroupedParameters.edit_group"]}
{"id": "C50", "title": "Cluster moves that redraw sources stay reversible", "statement": "When a cluster operator also redraws the sources of the objects it moved, the reported forward and backward probabilities (cluster part times source part) are the real probabilities of the joint move and of its reverse, so the joint posterior of clusters and sources is left invariant.", "quantifier": "all samples, draws, weights, effects, source laws, the three cluster operators", "why_tests_cant": "Distributional, over pairs of joint states.", "anchors": ["sbayes/sampling/operators.py: propose_new_sources, gibbs_sample_source, calculate_source_posterior, AlterCluster, AlterClusterGibbsish, AlterClusterGibbsish2"]}
{"id": "C51", "title": "Dirichlet steps on weights and effects leave the posterior invariant", "statement": "AlterWeights, AlterClusterEffect and AlterConfoundingEffects draw from the density they report, and proposing and accepting leaves the posterior along the two changed entries stationary.", "quantifier": "all weights/effects, entries, positive measurable posteriors", "why_tests_cant": "Continuous distributions.", "anchors": ["sbayes/sampling/operators.py: DirichletOperator.dirichlet_proposal, AlterWeights, AlterClusterEffect, AlterConfoundingEffects"]}
{"id": "C52", "title": "Gibbs sampling of weights leaves the posterior of the weights invariant", "statement": "GibbsSampleWeights, which proposes and accepts feature by feature, leaves the prior probability of the current sources given the weights stationary, although it reports an always accepted Gibbs step.", "quantifier": "all sources, components, weights, features", "why_tests_cant": "Continuous distributions.", "anchors": ["sbayes/sampling/operators.py: GibbsSampleWeights"]}
{"id": "C53", "title": "A whole run leaves the posterior invariant", "statement": "If every operator of the chain leaves the posterior stationary, so does choosing one at random with the normalised weights in every step, for any number of steps.", "quantifier": "all operator mixes, step counts, posteriors", "why_tests_cant": "Statement about distributions over unbounded runs.", "anchors": ["sbayes/sampling/mcmc.py: generate_samples, choose_operator, step"]}
{"id": "C54", "title": "Every state of every run is well-formed and has a finite log-likelihood", "statement": "From an initial sample generated from scratch, after any sequence of moves of any of the operators, accepted or rejected: clusters are disjoint with sizes within the bounds, weights and effects are positive distributions (effects on the applicable states only), every observation has exactly one source that applies to the object, and the likelihood of each observation (with and without sources) as well as the prior weight of each source is positive.", "quantifier": "all runs: all draws, operator sequences, lengths", "why_tests_cant": "Histories of unbounded length.", "anchors": ["sbayes/sampling/sbayes_sampling.py: generate_initial_sample, get_operators", "sbayes/sampling/mcmc.py: step", "sbayes/sampling/operators.py", "sbayes/model/likelihood.py"]}
{"id": "C55", "title": "Loading the output files of a run gives back the logged samples", "statement": "After any history of logging, reading the clusters and statistics files and dropping the burn-in yields, for every kept sample, its clusters, weights, areal and confounding effects, likelihood, prior, posterior and single-cluster contributions under the right names and positions, each number as it survives formatting and parsing; clusters and parameters carry the same relabelling.", "quantifier": "all histories of samples, names (without '_' in feature, confounder and group names), sizes, burn-ins", "why_tests_cant": "The column layout, the relabelling and the readers must agree for every schema and history.", "anchors": ["sbayes/sampling/loggers.py: ParametersCSVLogger, ClustersLogger", "sbayes/results.py: Results.from_csv_files, Results.__init__"]}
{"id": "C56", "title": "Simulated sites belong to the clusters and groups they are labelled with", "statement": "In the simulation, sites with the same non-zero cluster id form one cluster and sites with id 0 belong to none; sites with the same entry for a confounder form one group and sites without an entry belong to none.", "quantifier": "all site tables", "why_tests_cant": "All tables; the claim about missing entries is false (they form a group named '0'): negation witness and partial theorem.", "anchors": ["sbayes/preprocessing.py: load_canvas, assign_to_cluster, assign_to_confounders"]}
{"id": "C57", "title": "Rows of the data file are independent of their order and of white space", "statement": "Object i, its location, feature values and confounder groups all come from row i of the data file; reordering the rows only reorders the objects; white space around cells makes no difference.", "quantifier": "all data and state files, all row permutations", "why_tests_cant": "Quantifies over files and permutations.", "anchors": ["sbayes/load_data.py: read_features_from_csv, Objects.from_dataframe, Features.from_dataframes, Confounder.from_dataframe", "sbayes/util.py: read_data_csv, normalize_str, encode_states"]}
{"id": "C58", "title": "State files extracted by the tool fit the data they were extracted from", "statement": "For every list of data files, the state file the tool writes lists for each feature exactly the values that occur, once and in order, and each of the data files loads with it.", "quantifier": "all lists of data files", "why_tests_cant": "All files; false for cells that contain only white space: negation witness and partial theorem.", "anchors": ["sbayes/tools/extract_feature_states.py: collect_feature_states, dict_to_df, main", "sbayes/util.py: read_data_csv, encode_states"]}
{"id": "C59", "title": "Empirical priors extracted by the tools have the announced concentration", "statement": "A prior file extracted with hyper-prior concentration c0, used as Dirichlet prior on a confounding effect, gives each state of each feature the concentration c0 plus its (capped) number of occurrences in the family (or in all objects).", "quantifier": "all data sets, families, c0, caps", "why_tests_cant": "All data; false by a pseudo-count of 1 added twice: negation witness and partial theorem.", "anchors": ["sbayes/tools/extract_universal_prior_counts.py: main", "sbayes/tools/extract_inheritance_prior_counts.py: main", "sbayes/model/prior.py: parse_concentration_dict"]}
{"id": "C60", "title": "Warm-up chains get increasing maximum cluster sizes", "statement": "get_max_size_list(start, end, n, k) has one entry per chain; entries begin at start, never decrease, stay below end, and are shared in groups of ceil(n/k) chains.", "quantifier": "all sizes, numbers of chains and of groups", "why_tests_cant": "Unbounded integers; floor divisions.", "anchors": ["sbayes/util.py: get_max_size_list", "sbayes/sampling/sbayes_sampling.py: ClusterMCMCWarmup"]}
{"id": "C61", "title": "n_smallest_distances returns the closest pairs", "statement": "The returned pairs are pairs of different objects at positive distance, each pair once, every returned pair is closer than every other, and there are n of them (more only if distances are equal). bounding_box is the smallest box around the points.", "quantifier": "all distance matrices and n, all lists of points", "why_tests_cant": "Ties, all matrices.", "anchors": ["sbayes/util.py: n_smallest_distances, bounding_box"]}
{"id": "C62", "title": "Simulated data follow the likelihood of the model", "statement": "With the same clusters, confounders, weights and state probabilities, the probability that simulate_features returns a given data set is exactly the likelihood the model computes for that data set; in particular the likelihood is a normalised distribution over data sets without missing values.", "quantifier": "all clusterings without overlap, confounders, weights, state probabilities, data sets", "why_tests_cant": "A statement about the distribution of the output over all random draws, and equality of two independently written programs for all inputs.", "anchors": ["sbayes/simulation.py: simulate_features", "sbayes/model/likelihood.py: Likelihood, normalize_weights"]}
{"id": "C63", "title": "Simulated parameters have the configured shapes", "statement": "The list of numbers of states has at least one entry per feature, only the configured numbers occur and each at least for its share of the features; simulated probabilities are distributions over the states of the feature and zero elsewhere.", "quantifier": "all shares, numbers of features, draws", "why_tests_cant": "All draws and configurations.", "anchors": ["sbayes/preprocessing.py: simulate_assignment_probabilities"]}
{"id": "C64", "title": "Files written by the simulation can be loaded by the data reader", "statement": "For every simulated data set the features file and the states file written by the simulation load together; nothing is missing, each feature has exactly the simulated values as states and each object has the state it was simulated with.", "quantifier": "all simulated data sets, all iteration orders of the sets of values", "why_tests_cant": "Round trip over all data sets and set orders.", "anchors": ["sbayes/simulation.py: Simulation.write_to_csv", "sbayes/load_data.py: Features.from_dataframes", "sbayes/util.py: read_data_csv, encode_states"]}
{"id": "C65", "title": "The reference model gives the same posterior odds", "statement": "The slow reference implementation (model_slow) and the fast model assign to every sample the same posterior density up to one positive constant that depends on data and configuration only; hence they give the same odds of any two samples and the same acceptance probabilities.", "quantifier": "all data, configurations with uniform confounding-effect priors, samples with disjoint clusters, evaluation orders", "why_tests_cant": "Equality of two independently written programs for all inputs.", "anchors": ["sbayes/model/model_slow.py: Model, Likelihood, Prior, ConfoundingEffectsPrior", "sbayes/model/model.py: Model.__call__", "sbayes/model/prior.py: Prior.__call__"]}
{"id": "C66", "title": "A call of the model returns the log-posterior of the current parameters", "statement": "After any history of edits, copies and evaluations, calling the model on a sample returns log-likelihood plus log-prior of the sample's current parameters, with or without caching, and does not change the parameters.", "quantifier": "all histories, samples, priors, evaluation orders", "why_tests_cant": "Quantifies over histories; false with caching for cost-based geo-priors: negation witness and exact value of the error.", "anchors": ["sbayes/model/model.py: Model.__call__", "sbayes/model/prior.py: Prior.__call__", "sbayes/model/likelihood.py: Likelihood.__call__", "sbayes/sampling/state.py: ModelCache"]}
{"id": "C67", "title": "The cluster posterior of the Gibbs-ish operators is the membership posterior", "statement": "For an object that is free or in the cluster, the inclusion probability computed by the Gibbs-ish cluster operators equals likelihood(in) / (likelihood(in) + likelihood(out)), where the likelihoods are those the model computes for the whole data set with the sources integrated out.", "quantifier": "all data, parameters, clusters, objects", "why_tests_cant": "Relates two different programs for all inputs; false for objects with missing features: negation witness and partial theorem.", "anchors": ["sbayes/sampling/operators.py: AlterClusterGibbsish.compute_cluster_posterior, compute_feature_weights_with_and_without", "sbayes/model/likelihood.py: Likelihood.__call__"]}
{"id": "C68", "title": "Cached calculations change nothing about a run", "statement": "A chain of the sampler with its cached calculations and self-checks goes through the same parameter values as a chain that recomputes likelihood and prior from the parameters in every step, its recorded log-likelihood and log-prior are those of its parameters, and its self-checks never fail.", "quantifier": "all data, initial parameters, sequences of operator moves (in place or on copies), decisions, set traversal orders, step numbers", "why_tests_cant": "Quantifies over whole runs; false for geo-priors that depend on the clusters: exact description of the deviation and negation witness.", "anchors": ["sbayes/sampling/mcmc.py: MCMC.likelihood, MCMC.prior, MCMC.step, MCMC.generate_samples", "sbayes/sampling/state.py: Sample.copy, ModelCache", "sbayes/model/prior.py: GeoPrior.__call__"]}
{"id": "C69", "title": "Every log entry belongs to the logged parameters", "statement": "Each logged sample carries the number of its step, and its logged likelihood, prior and per-observation likelihoods are those of the logged parameters, recomputed from scratch; the log as a whole is the log of the chain that recomputes everything in every step.", "quantifier": "all data, initial parameters, sequences of moves and decisions, logging intervals, traversal orders", "why_tests_cant": "Quantifies over whole runs; false for geo-priors that depend on the clusters (witness).", "anchors": ["sbayes/sampling/mcmc.py: MCMC.generate_samples, MCMC.step, MCMC.likelihood, MCMC.prior, log_sample_statistics, print_screen_log", "sbayes/sampling/state.py: Sample.__init__, Sample.copy", "sbayes/sampling/loggers.py: ParametersCSVLogger._write_sample, LikelihoodLogger._write_sample"]}
{"id": "C70", "title": "Ranking clusters is one consistent relabelling", "statement": "rank_clusters gives every cluster one new number, the same in all samples and in clusters, likelihoods, priors, posteriors and cluster effects; it changes nothing else, and afterwards the mean posterior contribution does not increase with the cluster number.", "quantifier": "all sample collections with any number of samples and clusters, all orders in which ties may be broken", "why_tests_cant": "Tests rank a few samples; the claim covers all statistics, all ties and every size.", "anchors": ["sbayes/postprocessing.py: rank_clusters", "sbayes/postprocessing.py: match_clusters"]}
{"id": "C71", "title": "The DIC is the deviance information criterion", "statement": "compute_dic returns twice the mean deviance minus the deviance of the best retained sample, over the samples left after the burn-in, so that models are compared as by the criterion.", "quantifier": "all lists of log-likelihoods, all burn-in fractions", "why_tests_cant": "A test with one list accepts a sign error in one term; ranking of models needs all pairs of lists.", "anchors": ["sbayes/postprocessing.py: compute_dic", "sbayes/plot.py: Plot.plot_dic"]}
{"id": "C72", "title": "Plots discard the burn-in once", "statement": "Every plot of a model uses exactly the logged samples after the configured burn-in: no sample of the burn-in, and all later ones, in their order.", "quantifier": "all logs, all burn-in fractions of the map and of the individual plots", "why_tests_cant": "Which samples are used depends on rounding and on two settings; a test with one log length does not show that samples after the burn-in are dropped.", "anchors": ["sbayes/plot.py: Plot.iterate_over_models, Plot.clusters_to_graph, Plot.plot_pies, Plot.plot_dic", "sbayes/results.py: Results.drop_burnin", "sbayes/postprocessing.py: compute_dic"]}
{"id": "C73", "title": "Maps show the posterior frequencies", "statement": "On a consensus map an object is marked exactly if it is in the cluster in at least the configured share of the retained samples; a line joins two different marked objects, no pair twice, with the share of samples containing both as weight; up to three marked objects are all joined, more are joined by the Gabriel edges of their Delaunay triangulation. On a density map every pair of objects is joined once.", "quantifier": "all samples, locations, thresholds, burn-ins and numbers of objects; all symmetric triangulations", "why_tests_cant": "The graph depends on every sample and location; tests cover single layouts.", "anchors": ["sbayes/plot.py: Plot.clusters_to_graph", "sbayes/util.py: compute_delaunay, gabriel_graph_from_delaunay"]}
{"id": "C74", "title": "Pie charts account for every sample", "statement": "For each object there is one pie in a cell of its own; slice k is the number of retained samples with the object in cluster k, the last slice the number of samples with it in none; the slices add up to the number of samples; the label is the name of the object, apart from line breaks.", "quantifier": "all samples with disjoint clusters, all numbers of objects, clusters and columns, all names", "why_tests_cant": "Holds per object, sample and grid shape; fails only for particular shapes (one row) and names (blank and dash).", "anchors": ["sbayes/plot.py: Plot.plot_pies"]}
{"id": "C75", "title": "The correspondence table identifies the numbers on the map", "statement": "Every listed object has its own number and name side by side in the table, coloured like a cluster containing it; an object is listed exactly if it is in a cluster or all are to be shown, once if the clusters are disjoint; the table is filled column by column, all rows have the same length and the rest is empty.", "quantifier": "all object lists, cluster labels, colours and numbers of columns", "why_tests_cant": "Index arithmetic (modulo number of rows) must be right for every size.", "anchors": ["sbayes/plot.py: Plot.add_correspondence_table"]}
{"id": "C76", "title": "The legend gives every cluster its own log-likelihood", "statement": "In the legend with log-likelihoods the number at label Z_i is the mean log-likelihood of cluster i (without decimals).", "quantifier": "all samples and numbers of clusters", "why_tests_cant": "Only wrong when the clusters are not numbered by likelihood.", "anchors": ["sbayes/plot.py: Plot.add_log_likelihood_legend, Plot.visualize_clusters"]}
{"id": "C77", "title": "Contribution columns are single-cluster evaluations", "statement": "In the parameter log the columns lh_a{i} and prior_a{i} of a sample are log-likelihood and log-prior, recomputed from scratch, of the model that has the i-th cluster (in the logged numbering) as its only cluster and sums out the sources; post_a{i} is their sum. They do not depend on cached values or on the order in which the sampler numbers the clusters.", "quantifier": "all samples (with any versions and cached values), data, matchings of clusters", "why_tests_cant": "Depends on the history of the sample's caches and on the matching of all earlier samples.", "anchors": ["sbayes/sampling/loggers.py: ParametersCSVLogger._write_sample", "sbayes/sampling/state.py: Sample.from_numpy_arrays, GroupedParameters"]}
{"id": "C78", "title": "The operator statistics file is exact and readable", "statement": "The operator statistics file can be parsed back: one row per operator, with a name that identifies the operator, the numbers of accepted and rejected proposals, their sum and the acceptance rate rounded to two decimals. The totals add up to the number of steps, and two different sets of counts give different files.", "quantifier": "all operators, counts, runs and earlier contents of the file", "why_tests_cant": "Padding, rounding and accumulation must be right for all counts and run lengths; fails only for two or more confounders (names).", "anchors": ["sbayes/sampling/loggers.py: OperatorStatsLogger", "sbayes/sampling/mcmc.py: OperatorStats, MCMC.step", "sbayes/sampling/operators.py: Operator.operator_name"]}
{"id": "C79", "title": "A killed run leaves the samples logged so far", "statement": "If the process is killed at any moment, also in the middle of a write, the complete lines of the statistics and clusters files are exactly those of a run that logged only the first a, respectively b, samples, with b = a or b = a - 1, and no sample whose logging was finished is missing. The files can be loaded, with rows and clusters of equal index belonging to the same sample.", "quantifier": "all runs, all points of interruption down to single characters, all burn-ins", "why_tests_cant": "There is a crash point after every character of every write; tests cannot enumerate them.", "anchors": ["sbayes/sampling/loggers.py: ResultsLogger.write_sample, ResultsLogger.open, OperatorStatsLogger.write_sample", "sbayes/sampling/mcmc.py: MCMC.log_sample_statistics", "sbayes/mcmc_setup.py: MCMCSetup.sample", "sbayes/results.py: Results"]}
{"id": "C80", "title": "The sampler as a whole has the posterior as its stationary distribution", "statement": "If the parameters of a chain (clusters, sources, weights, cluster effects, confounding effects) are distributed as the posterior of the model, they are still exactly so distributed after any number of iterations of the sampling loop: choice of an operator with the configured relative frequencies, all random draws of the operator (which cluster, object, feature, components and states; Dirichlet, Beta and uniform draws; redrawn sources), and acceptance or rejection. This holds for the operators used with source sampling and for those used without. The posterior is the product of the priors, the probability of the sources given the weights, and the probability of the observations; with respect to the uniform distribution on the simplices of the continuous parameters. (Posterior evaluated exactly; for the cost-based geo-prior the cache is wrong, see C07 and C68.)", "quantifier": "all data sets, numbers of clusters, confounders and groups, priors, size limits, neighbourhood graphs, operator frequencies and numbers of iterations; all measurable sets of states", "why_tests_cant": "A statement about a continuous distribution over an infinite state space; simulation-based tests can only fail to notice small biases.", "anchors": ["sbayes/sampling/sbayes_sampling.py: get_operators, normalize_operator_weights", "sbayes/sampling/mcmc.py: MCMC.step, MCMC.choose_operator, MCMC.generate_samples", "sbayes/sampling/operators.py: all operators", "sbayes/model/model.py: Model.__call__"]}
{"id": "C81", "title": "The posterior is a proper distribution", "statement": "The posterior that the sampler targets has finite total mass, and positive total mass whenever there is any assignment of objects to clusters that satisfies the size limits. So it can be normalised to a probability distribution.", "quantifier": "all data sets, numbers of clusters, confounders and groups, priors (also with concentrations below 1, whose density is unbounded), size limits", "why_tests_cant": "Integrability of an unbounded density for all configurations.", "anchors": ["sbayes/model/model.py: Model.__call__", "sbayes/model/prior.py: Prior.__call__", "sbayes/model/likelihood.py: Likelihood.__call__"]}
{"id": "C82", "title": "The cluster operators can reach every admissible configuration", "statement": "From any assignment of objects to disjoint clusters that respects the size limits, each of the cluster operators can, in finitely many accepted steps of positive probability, get to any other such assignment, provided the limits leave room (number of clusters times minimum size below the number of objects), the minimum size is below the maximum size (not needed for the operator that redraws a whole cluster), and growing is not confined to neighbouring objects. If growing is confined to neighbours (grow_to_adjacent 1.0 is accepted by the configuration), objects without neighbours never get into a cluster; with a fixed size the add/remove operators never move.", "quantifier": "all numbers of objects and clusters, neighbourhood graphs, size limits, positive posteriors, pairs of configurations", "why_tests_cant": "Reachability in a state space of exponential size, for every graph and every size limit.", "anchors": ["sbayes/sampling/operators.py: AlterCluster, AlterClusterGibbsish, AlterClusterGibbsish2", "sbayes/config/config.py: MCMCConfig.grow_to_adjacent", "sbayes/sampling/mcmc.py: MCMC.step"]}
{"id": "C83", "title": "The posterior is the only equilibrium of the sampler", "statement": "With source sampling and all operators in use, no other probability distribution with a density is left unchanged by an iteration of the sampling loop: a chain that has settled has settled at the posterior. (Provided the number of clusters times their minimum size is below the number of objects; growing may be confined to neighbouring objects, because one of the operators redraws whole clusters.)", "quantifier": "all data sets, numbers of clusters, confounders and groups, priors, size limits, neighbourhood graphs, positive operator frequencies; all probability distributions with a density", "why_tests_cant": "A statement about all distributions over an infinite state space; a second equilibrium could be in a region that no test run visits.", "anchors": ["sbayes/sampling/sbayes_sampling.py: get_operators", "sbayes/sampling/mcmc.py: MCMC.step, MCMC.generate_samples", "sbayes/sampling/operators.py: all operators used with source sampling", "sbayes/model/model.py: Model.__call__"]}
{"id": "C84", "title": "Sampling never fails", "statement": "With source sampling, from almost every state with positive posterior a run of any length raises no exception with probability one (no division by zero, no draw from an empty or unnormalised distribution), and in every state it visits the clusters are disjoint and within the size limits and the posterior can be evaluated and is positive.", "quantifier": "all data sets, numbers of clusters, confounders and groups, priors, size limits, operator frequencies, numbers of iterations, almost all initial states", "why_tests_cant": "Failures depend on rare combinations of draws in arbitrarily long runs.", "anchors": ["sbayes/sampling/mcmc.py: MCMC.step", "sbayes/sampling/operators.py: all operators used with source sampling", "sbayes/model/model.py: Model.__call__"]}
{"id": "C85", "title": "Averages over the log converge to posterior means", "statement": "With source sampling, as the number of logged samples grows, the average of any bounded function over the logged samples (for example the fraction of samples in which an object belongs to a cluster) is within any given distance of its posterior mean with probability tending to one, whatever the thinning interval, from any initial distribution that has a density with respect to the posterior.", "quantifier": "all data sets, numbers of clusters, confounders and groups, priors, size limits with room for a move, operator frequencies (all positive), thinning intervals, bounded functions, tolerances, initial distributions with a density", "why_tests_cant": "It is a statement about the limit of arbitrarily long random runs; a test sees one finite run and cannot separate slow mixing from a wrong limit.", "anchors": ["sbayes/sampling/mcmc.py: MCMC.generate_samples", "sbayes/sampling/mcmc.py: MCMC.step", "sbayes/sampling/operators.py: all operators used with source sampling", "sbayes/sampling/sbayes_sampling.py: get_operators"]}
{"id": "C86", "title": "Only valid configurations are accepted, and they mean what the file says", "statement": "If a configuration is accepted, then steps, samples, runs, warm-up lengths and sizes are positive, steps is a multiple of samples, growth probability is in [0,1], operator frequencies are not negative, a cost-based geo-prior has a positive rate, Dirichlet priors have parameters or an existing file, the data files exist, and every group of every confounder has a prior. No section contains an unknown key. Every setting is the value in the file (after the custom settings have been merged) or the documented default; the frequency of the source operator is 0 if sources are not sampled. Updating a configuration with nothing leaves it as it is (apart from parts that are not used). Three settings are required although a default is documented (sample_source, confounders, and the operators if sources are not sampled).", "quantifier": "all configuration files (dictionaries of any shape), file systems, base directories", "why_tests_cant": "The set of configuration files is infinite; a test checks some files and some defects.", "anchors": ["sbayes/config/config.py: SBayesConfig, ModelConfig, PriorConfig, MCMCConfig, from_config_file, update, validate_operators, validate_confounder_priors, validate_sample_spacing, validate_dirichlet_parameters"]}
{"id": "C87", "title": "The run is the one that the configuration and the files describe", "statement": "For an accepted configuration, setting up the run (loading the data, building model and prior) succeeds exactly if the files fit to it (all features and values known, configured groups = groups in the data, counts for all states, costs for all ids) and no unsupported prior is chosen; the run then has the objects, observed and applicable states, groups, prior counts (plus one), cost function, neighbours, size limits and operator frequencies that the configuration and the files say. If additionally the files are sensible (no gaps in the list of states, every object in a group, ...) the run is well-posed, so that the guarantees on the samples (C80-C85) hold for it.", "quantifier": "all configurations, data files, state tables, prior files and cost files", "why_tests_cant": "Whether the parts fit together depends on all the combinations of settings and file contents; tests use a few data sets.", "anchors": ["sbayes/load_data.py: Data, Features, Confounder, Objects", "sbayes/model/model.py: Model.__init__", "sbayes/model/prior.py: Prior.__init__, ConfoundingEffectsPrior, GeoPrior, WeightsPrior, ClusterEffectPrior", "sbayes/mcmc_setup.py: MCMCSetup.sample"]}
{"id": "C88", "title": "Whole runs converge to the posterior, from every start", "statement": "With source sampling and all operators in use: from every single state that the model allows (not only from almost every state) a run can be continued for any number of steps without an exception, logs one sample every steps_per_sample steps, only logs states the model allows, and averages of bounded functions over the logged samples converge (in probability) to the posterior means. The same is true for a whole run: initial samples for all warm-up chains, warm-up, choice of the best chain, main run started from it with new sources.", "quantifier": "all data sets, models, initial states, random numbers for the initial clusters, numbers of chains and steps, bounded functions of the sample", "why_tests_cant": "The guarantee for almost every initial state says nothing about the initial states the program generates, which have probability zero; that there are no exceptional states from which the sampler gets stuck is a statement about all of them and about infinite runs.", "anchors": ["sbayes/mcmc_setup.py: MCMCSetup.warm_up, MCMCSetup.sample", "sbayes/sampling/mcmc.py: MCMC.generate_samples, MCMC.step", "sbayes/sampling/sbayes_sampling.py: generate_initial_sample", "sbayes/cli.py: run_experiment"]}
{"id": "C89", "title": "Runs without source sampling converge to the posterior", "statement": "With source sampling switched off and all operators in use, the posterior is the only distribution with a density that the sampler leaves unchanged; a run started from such a distribution never fails, and averages and frequencies over its logged samples converge (in probability) to posterior means and probabilities. This needs at least two applicable states for every feature, clusters that may grow (minimal size below maximal size), room for them to grow, and growth not confined to neighbours; with a fixed cluster size the sampler never changes the clusters.", "quantifier": "all data sets, models without source sampling, operator weights, starting distributions with a density, bounded functions of the sample", "why_tests_cant": "Convergence and uniqueness of the equilibrium are statements about infinite runs and about all distributions on a continuous state space.", "anchors": ["sbayes/sampling/sbayes_sampling.py: get_operators", "sbayes/sampling/operators.py: AlterCluster, AlterWeights, AlterClusterEffect, AlterConfoundingEffects, dirichlet_proposal", "sbayes/sampling/mcmc.py: MCMC.generate_samples, MCMC.step"]}
{"id": "C90", "title": "Whole runs without source sampling converge, from every start", "statement": "With source sampling switched off and all operators in use: from every single state that the model allows (not only from almost every state) a run can be continued for any number of steps without an exception, logs one sample every steps_per_sample steps, only logs states the model allows, and averages of bounded functions over the logged samples converge (in probability) to posterior means. The same is true for a whole run: initial samples for all warm-up chains, warm-up, choice of the best chain, and the main run, which starts in exactly the sample the warm-up returned.", "quantifier": "all data sets, models without source sampling, initial states, random numbers for the initial clusters, numbers of chains and steps, bounded functions of the sample", "why_tests_cant": "The initial states the program generates have probability zero under the posterior, and the Metropolis-Hastings steps move only two entries of one row at a time and may reject arbitrarily often near the boundary; that no start gets stuck is a statement about all of them and about infinite runs.", "anchors": ["sbayes/mcmc_setup.py: MCMCSetup.warm_up, MCMCSetup.sample", "sbayes/sampling/mcmc.py: MCMC.generate_samples, MCMC.step", "sbayes/sampling/sbayes_sampling.py: generate_initial_sample, get_operators", "sbayes/sampling/operators.py: AlterCluster, AlterWeights, AlterClusterEffect, AlterConfoundingEffects, dirichlet_proposal"]}
{"id": "C91", "title": "With sample_from_prior, a run samples the prior", "statement": "With sample_from_prior switched on, nothing in the distribution that is sampled depends on the data: its density is size prior times geo-prior times prior of the confounding effects (times the probability of the sources given the weights, if they are sampled). The sampler leaves it invariant, has no other equilibrium with a density, a whole run does not fail, logs only allowed states, and averages over the logged samples converge (in probability) to prior means, from every start. In particular the frequency of each assignment to clusters converges to exp(size prior + geo-prior), normalised over the allowed assignments, and under the prior the clusters are independent of weights and effects.", "quantifier": "all data sets, models, initial states, random numbers for the initial clusters, numbers of chains and steps, bounded functions of the sample, both modes of source sampling", "why_tests_cant": "Sampling from the prior is used to check priors and operators; whether the data leaks into the result through a proposal distribution is only visible in the limit and for data sets where it matters.", "anchors": ["sbayes/sampling/mcmc.py: MCMC.likelihood, MCMC.step", "sbayes/sampling/operators.py: AlterClusterGibbsish, AlterClusterGibbsish2, GibbsSampleSource, GibbsSampleClusterEffect, GibbsSampleConfoundingEffects, compute_cluster_posterior", "sbayes/sampling/sbayes_sampling.py: get_operators, generate_initial_sample", "sbayes/mcmc_setup.py: MCMCSetup.warm_up, MCMCSetup.sample"]}
{"id": "C92", "title": "Source sampling does not change the answer", "statement": "The joint posterior distribution of clusters, weights and effects is the same with sample_source switched on and off (the sources are only additional parameters, with the likelihood of the other mode as their sum), and whole runs in the two modes converge to the same frequencies of every property of clusters, weights and effects.", "quantifier": "all data sets, models, operator weights, properties of the sample (measurable), random numbers for the initial clusters, numbers of chains and steps", "why_tests_cant": "The two modes use different likelihood code, different priors and different operators; equality of the limits is a statement about all data sets and infinite runs.", "anchors": ["sbayes/model/likelihood.py: Likelihood.__call__, compute_component_likelihood, normalize_weights", "sbayes/model/prior.py: SourcePrior", "sbayes/sampling/sbayes_sampling.py: get_operators, generate_initial_sample", "sbayes/sampling/mcmc.py: MCMC.generate_samples"]}
{"id": "C93", "title": "What is loaded from the result files of a run converges to the posterior", "statement": "Take a whole run (initial samples, warm-up, main run), let the samples be written to the clusters and statistics files, and load the files with any burn-in fraction below one. The longer the run: loading succeeds, and the fraction of the loaded samples whose clusters have a property that does not depend on the labels of the clusters (an object is in some cluster, two objects are in the same cluster) converges (in probability) to its posterior probability; the means of the loaded weights, of the confounding effects and of the effect of the cluster a given object is in converge to the posterior means up to the rounding of numbers in the file. In both modes of source sampling.", "quantifier": "all data sets, models, operator weights, names that can be told apart, numeric formats, burn-in fractions, unlabelled properties of the clusters, random numbers for the initial clusters, numbers of chains and steps", "why_tests_cant": "It combines the sampler, the relabelling of clusters in the loggers, the text format, the parser and the burn-in; that none of them distorts the limit is a statement about infinite runs and all data sets.", "anchors": ["sbayes/mcmc_setup.py: MCMCSetup.warm_up, MCMCSetup.sample", "sbayes/sampling/mcmc.py: MCMC.generate_samples", "sbayes/sampling/loggers.py: ParametersCSVLogger, ClustersLogger", "sbayes/results.py: Results.from_csv_files, Results.drop_burnin, Results.read_clusters, Results.read_stats"]}
{"id": "C94", "title": "The runs of one command do not disturb each other, however they are scheduled", "statement": "The runs of a command (all pairs of run and number of clusters, no number repeated) are executed by any number of processes. For every interleaving of their file operations and at every moment: the result files of each run, and what it still has to do, are as if it were alone on the disk and had made as many operations; files outside the results directory, and files in it that do not belong to the command, are unchanged; the common log contains all messages logged so far, each whole, those of each run in order. When all runs have ended: every file but the log is as after running them one after the other; the common copy of the configuration is complete; the text files of each run contain all its samples. Experiments without a name share a results directory if and only if they were started in the same minute, and then overwrite each other's results.", "quantifier": "all commands (configuration, data files, sessions of the runs), disks, numbers of runs and lists of numbers of clusters, schedules (interleavings, also incomplete ones), times", "why_tests_cant": "The number of interleavings is exponential and the operating system chooses; a test sees a few schedules on one machine. That no schedule mixes the files is a statement about all of them.", "anchors": ["sbayes/cli.py: main, runner, run_experiment", "sbayes/experiment_setup.py: Experiment.__init__, Experiment.init_results_directory, Experiment.add_logger_file", "sbayes/mcmc_setup.py: MCMCSetup.get_sample_loggers", "sbayes/util.py: set_experiment_name"]}
{"id": "C95", "title": "The runs of one command are independent repetitions", "statement": "The results of the runs of one command are independent, and each has the law of a run on its own: the probability that all results lie in given sets is the product of the probabilities of the single runs. This holds for runs executed one after the other, for the runs of each process of a pool, and for all runs if the processes of the pool start with generators of their own. It does not hold for a pool started with fork: the processes have copies of the generator of numpy, so that the first runs of all processes draw the same numbers from it; e.g. all of them begin with the same operator.", "quantifier": "all programs drawing from the two generators (of any length, adaptively), laws of the numbers, numbers of runs and processes, distributions of the runs over the processes", "why_tests_cant": "Independence is a statement about the joint law of all runs; a test with a fixed seed sees one outcome, and equal draws hidden in otherwise different runs are not visible in the results of a single run.", "anchors": ["sbayes/cli.py: main, runner", "sbayes/sampling/mcmc.py: MCMC.generate_samples, MCMC.choose_operator", "sbayes/sampling/sbayes_sampling.py: ClusterMCMC.generate_initial_sample", "sbayes/preprocessing.py: sample_categorical"]}
{"id": "C96", "title": "Plots of weights and preferences show the samples in a polygon", "statement": "In the plots of weights and of preferences (three or more components or states), every sample is a point of the regular polygon with a corner for each component; a sample with all weight on a component is at the corner with its label; the marked mean is the mean of the points; with three components the position determines the weights. The white areas cover all points beside the polygon and, of the polygon, at most its outline. A plot does not depend on the plots made before: this is false, each earlier plot of preferences with labels and the same number of states enlarges the figure by 1.2 (otherwise it is the same). With four or more components the position does not determine the weights, and weights of two components cannot be plotted.", "quantifier": "all numbers of components, samples, labels, and sequences of earlier plots in the same process", "why_tests_cant": "The claims are about all points of the plane, all numbers of corners and all histories of plots; a test compares one image.", "anchors": ["sbayes/plot.py: get_corner_points, fill_outside, plot_weight, plot_preference"]}
{"id": "C97", "title": "The requested plots are made", "statement": "From the command line, exactly the plots requested are made, each once for each model, without exception: a map, the weights, the preferences, the pie charts, and the named feature, and one DIC plot; each with the settings of its part of the configuration. This holds but for the weights: they are plotted only if the configuration has a part `weights_plot`, and the settings there are not used. A type of plot missing in the file is plotted all the same; types given as texts are ignored; without arguments of the command line there is an exception after the first model; and for several thresholds a single map is drawn instead of one for each.", "quantifier": "all configuration files, lists of requested types, lists of models, feature names", "why_tests_cant": "The decision depends on the merged configuration and the requested types for all files; tests use one file (and the texts in test_plot.py select no plot at all).", "anchors": ["sbayes/plot.py: main, plot_map, PlotType, Plot.load_config", "sbayes/config/default_config_plot.json", "sbayes/util.py: set_defaults"]}
{"id": "C98", "title": "Results of a run are combined, and the DIC is plotted by model", "statement": "Given the clusters files and statistics files of some runs in any order, in directories of the same depth, the plots combine the two files of each run, and each run appears once, under the name in its file names. The DIC plot shows, for all models or for those chosen by their numbers (from 1), the DIC of the log-likelihoods of that model. If one file is missing, or the directories have different depths, files of different runs are combined without notice; of runs with the same name only the last is in the DIC plot; and the number 0 chooses the last model.", "quantifier": "all lists of runs, directories, names, orders of the files, likelihoods, choices of models", "why_tests_cant": "Which files are paired depends on the order of all names and directories; tests use one or two runs in one directory.", "anchors": ["sbayes/plot.py: Plot.iterate_over_models, Plot.plot_dic", "sbayes/postprocessing.py: compute_dic"]}
{"id": "C99", "title": "The map shows the clusters of the posterior, in one colour each", "statement": "The map is made for any settings and results. It shows the configured part of the plane or all locations with a margin, and a point for every object. On a consensus map an object is marked in the colour of a cluster if and only if the share of the retained samples in which it is in that cluster reaches the threshold; the lines of a cluster, its labels, the legend entry and the entries in the table of names have the same colour; the numbers on the map are those in the table. Every cluster has its own colour and an object is marked for one cluster only: this holds for at most 256 clusters without configured colours and thresholds above one half, not for the default threshold of one half. On density maps the table has the colour of cluster 1 for all objects. With languages not labelled, labels for the objects in clusters are not drawn.", "quantifier": "all settings of the map, locations, numbers of objects and clusters, samples", "why_tests_cant": "The map depends on all samples and settings; a test looks at one image.", "anchors": ["sbayes/plot.py: posterior_map, get_extent, initialize_map, get_cluster_colors, visualize_clusters, add_labels, annotate_label, add_correspondence_table"]}
{"id": "C100", "title": "The order of the data does not matter", "statement": "For data with the objects, the features, the states of each feature, the confounders, the groups of each confounder and the clusters in another order, and priors and costs in the same order, the log-likelihood and log-prior of the same parameters are the same (and fail for the same parameters). The posterior distribution is the same distribution, reordered, and averages over the samples of a run on the reordered data converge to the posterior means for the original order, with or without sampling of the sources.", "quantifier": "all data sets, settings and parameters, and all orders of objects, features, states, confounders, groups and clusters; all choices of the minimum spanning trees, traversal orders and buffers", "why_tests_cant": "There are factorially many orders of every data set, and the claim about the posterior is about all parameters at once.", "anchors": ["sbayes/model/likelihood.py: Likelihood.__call__, compute_component_likelihood, update_weights", "sbayes/model/prior.py: Prior.__call__, GeoPrior, ClusterSizePrior, ConfoundingEffectsPrior, ClusterEffectPrior, SourcePrior", "sbayes/model/model.py: Model.__call__", "sbayes/sampling/mcmc.py: MCMC.generate_samples"]}
{"id": "C101", "title": "A simulation draws from the model", "statement": "Parameters and data of a simulation have the joint law that the configuration and the model's likelihood define: weights and effects follow the configured Dirichlet distributions, and given them every data set has the probability that the likelihood computes. If the configured distributions are the priors of the model and the clusters are drawn from the model's prior, the parameters that come with a data set are distributed as the posterior of the analysis of that data set: a region chosen for each data set to have posterior probability q contains the true clusters and parameters with probability q, with or without sampling of the sources.", "quantifier": "all canvases with at least one confounder, numbers of features and states and positive concentrations; all data sets; all measurable regions of clusters, weights and effects, chosen depending on the data", "why_tests_cant": "It is a statement about the joint distribution of continuous parameters and all data sets; tests see single draws.", "anchors": ["sbayes/simulation.py: Simulation.run_simulation, simulate_features", "sbayes/preprocessing.py: simulate_weights, simulate_assignment_probabilities, sample_categorical, assign_to_cluster, assign_to_confounders", "sbayes/model/model.py: Model.__call__"]}
{"id": "C102", "title": "A simulation uses the settings in its configuration file", "statement": "Loading the configuration of a simulation keeps every value the user gave and takes the default for those left out; it is rejected if a required field is missing or a placeholder is left anywhere, and accepted otherwise. The numbers of states of the features are those that the user asks for. The simulated data are written to the directory for the results. (The last two are false: the user's numbers of states are merged with the default shares for 2, 3 and 4 states, and without a results path the data are written to the root directory.)", "quantifier": "all configurations, nested to any depth, base directories and paths; all random draws", "why_tests_cant": "Configurations are unbounded nested dictionaries; a test sees a few of them.", "anchors": ["sbayes/simulation.py: Simulation.load_config_simulation, verify_config, write_to_csv", "sbayes/config/default_config_simulation.json", "sbayes/preprocessing.py: simulate_assignment_probabilities", "sbayes/util.py: set_defaults, iter_items_recursive, fix_relative_path"]}
{"id": "C103", "title": "Rounding errors in the log-likelihood are small", "statement": "The log-likelihood and the log-prior of the sources that the program computes in floating point differ from the exact ones by at most a bound that grows with the number of observations and the size of the value (2e-10 relative plus 3e-9 for doubles, a million observations and ten components), whatever the order in which numpy adds the numbers; the component likelihoods are exact, so incremental and full evaluation give the same floats. The error in the Metropolis-Hastings ratio is bounded accordingly, and rounding changes the decision of a step with at most that probability.", "quantifier": "all data sets and samples with positive likelihood; all relative errors of the operations; all orders and bracketings of the sums", "why_tests_cant": "The error depends on all inputs and on the order of summation, which is not documented; a test compares a few values with a tolerance.", "anchors": ["sbayes/model/likelihood.py: Likelihood.__call__, get_observation_lhs, update_component_likelihoods, compute_component_likelihood, normalize_weights", "sbayes/model/prior.py: SourcePrior.__call__", "sbayes/sampling/mcmc.py: MCMCGenerative.metropolis_hastings_ratio, step"]}
{"id": "C104", "title": "Rounding does not change which sources are drawn", "statement": "With the same random number the source drawn for an observation in floating point is the one that exact arithmetic would draw, except with a tiny probability (1e-13 for doubles and ten components), and a component with probability 0 is never drawn. (The latter is false for the first component, the cluster effect: if the rounded probabilities add up to less than 1, an object outside of all clusters can get the cluster effect as a source.)", "quantifier": "all weights, component likelihoods, relative errors of the operations, orders of summation and random numbers", "why_tests_cant": "It concerns events of probability 1e-16 and all inputs; tests never see them.", "anchors": ["sbayes/preprocessing.py: sample_categorical", "sbayes/sampling/operators.py: GibbsSampleSource._propose, calculate_source_posterior", "sbayes/util.py: normalize"]}
{"id": "C105", "title": "Shrinking and growing a cluster always has an object to draw", "statement": "Whenever a cluster may shrink (or grow), the operator draws one of its members (or one of the free objects): the computed probabilities are numbers, nonnegative, 0 for the other objects, and add up to 1 within the tolerance of the random generator. (False in double precision: a membership probability is exactly 1 once the observations of an object are 2^55 times as likely inside of the cluster, and if this holds for all members, the probabilities of removal are 0/0 and the run ends with a ValueError; likewise if the likelihood of one object underflows to 0.)", "quantifier": "all data sets, parameters, clusters, numbers of objects and features, and roundings to nearest", "why_tests_cant": "The failure depends on the number of features and on how well the parameters fit; small test data never reach it.", "anchors": ["sbayes/sampling/operators.py: AlterClusterGibbsish.compute_cluster_posterior, grow_cluster, shrink_cluster, compute_feature_weights_with_and_without", "sbayes/util.py: normalize", "sbayes/model/likelihood.py: normalize_weights"]}
{"id": "C106", "title": "An object that fits a cluster can be added to it", "statement": "If the cluster is not full, a free object can be proposed for the cluster and the proposal has a positive chance of being accepted, as the exact transition probabilities of both directions are positive. (False in double precision for exactly the objects that fit best: if the observations are 2^55 times as likely inside of the cluster, the probability of the reverse step is computed as 0 or nan, so the growing step always rejects the object, and the step that redraws the whole cluster rejects all proposals as long as such an object is outside. With sources sampled these are the only cluster operators.)", "quantifier": "all data sets, parameters, clusters, likelihoods, priors, source probabilities, random numbers and roundings to nearest", "why_tests_cant": "A rejected proposal leaves no trace; a test cannot tell a step that is never accepted from one that is rarely accepted.", "anchors": ["sbayes/sampling/operators.py: AlterClusterGibbsish.grow_cluster, AlterClusterGibbsish2._propose", "sbayes/sampling/mcmc.py: MCMCGenerative.step, metropolis_hastings_ratio", "sbayes/sampling/sbayes_sampling.py: operators"]}
{"id": "C107", "title": "Settings of the configuration take effect", "statement": "A setting that is accepted in the configuration, and the limits the warm-up assigns to its chains, have the documented effect on the run. (False: the skeleton of the geo-prior is accepted and never used, a minimum spanning tree is always taken; with source sampling, the default, grow_to_adjacent does not change the distribution of anything that is logged; the maximum cluster sizes and growing probabilities assigned to the chains of the warm-up are set after the operators were built and none of them uses them. Without source sampling grow_to_adjacent has its effect: the larger it is, the likelier a neighbour is added.)", "quantifier": "all configurations, worlds (files, locations), setups, cluster states, numbers of chains, limits and random draws", "why_tests_cant": "A setting without effect cannot be observed in a single run, and the distributions of two runs with random samples can only be compared approximately.", "anchors": ["sbayes/config/config.py: GeoPriorConfig.skeleton, MCMCConfig.grow_to_adjacent", "sbayes/model/prior.py: GeoPrior, compute_cost_based_geo_prior", "sbayes/sampling/sbayes_sampling.py: ClusterMCMC.get_operators, ClusterMCMCWarmup.__init__", "sbayes/sampling/operators.py: AlterCluster.grow_cluster"]}
{"id": "C108", "title": "Missing and infinite geographical costs do not make a cluster look compact", "statement": "With cost_based geo-prior, a cluster is not favoured because costs between its objects are missing in the cost file or infinite: raising a cost does not raise the log-prior, and a file without all costs is rejected. (False: empty cells are accepted without notice; empty cells and infinities are no edges of the cost graph, so that objects that are not connected to others are cost-free, and a cluster without any cost has the maximal log-prior 0. With a finite number in every cell the prior is the one of property C15.)", "quantifier": "all cost files, cells that are finite, infinite or empty, object names, clusters, aggregations, probability functions, scales, and all minimum spanning forests the graph library may return", "why_tests_cant": "Which pairs drop out depends on the whole pattern of missing cells; the forest that is returned is not unique and a test fixes one file.", "anchors": ["sbayes/preprocessing.py: read_geo_cost_matrix", "sbayes/util.py: read_costs_from_csv", "sbayes/model/prior.py: compute_cost_based_geo_prior"]}
{"id": "C109", "title": "Prior parameters converted from CSV arrive in the model", "statement": "A table of prior parameters (a row per feature, a column per state, empty cells for states a feature does not have) that was converted to JSON and is used as Dirichlet prior gives every state of every feature of the model the number from its row and column, plus the initial count 1; order and additional rows and columns do not matter. The conversion fails exactly if some cell is a text; the converted file is usable exactly if there is a number for every state of every feature of the model. (A feature with two rows is not reported: the last row counts.)", "quantifier": "all tables, all names and states of features of a model, all initial counts", "why_tests_cant": "Which cells are missing, the order of rows and columns and repeated rows vary freely; a test fixes one table.", "anchors": ["sbayes/tools/convert_prior_csv_to_json.py: main", "sbayes/model/prior.py: DirichletPrior.parse_concentration_json"]}
{"id": "C110", "title": "The log of a run documents its set-up", "statement": "The set-up section of experiment.log shows the settings of the run, and two runs with the same set-up section have the same settings: number and sizes of clusters, priors, steps, samples, warm-up and ratios of the operators. (True for all of these except the priors' parameters: the section shows that a prior is a Dirichlet prior but not its parameters or file, and it does not show whether the run samples from the prior.)", "quantifier": "all configurations whose names and paths are single lines, all ways of showing numbers that show different numbers differently", "why_tests_cant": "The section is a text assembled from many settings and names; that no two set-ups share a text is a statement about all pairs of configurations.", "anchors": ["sbayes/mcmc_setup.py: MCMCSetup.log_setup", "sbayes/model/model.py: Model.get_setup_message", "sbayes/model/prior.py: Prior.get_setup_message, GeoPrior.get_setup_message, ConfoundingEffectsPrior.get_setup_message"]}
{"id": "C111", "title": "The likelihood file has one row per logged sample, with the likelihoods of its observations", "statement": "The likelihood_K<k>_<run>.h5 file of a run has one row for every logged sample, in the order of logging. Number i*F+f of the row (F features) is the likelihood of feature f of object i given the logged parameters: the probability of the observed value under the component the observation is attributed to, or without sources the weighted mean over the components the object has; 1 if the value is missing. The logarithms of these likelihoods add up to the log-likelihood of the same sample in the statistics file. Writing the file never fails as long as every observation is attributed to exactly one component, and a run that samples from the prior has no such file.", "quantifier": "all data with disjoint groups, all runs (initial parameters, operators, accept/reject histories, geo-priors, self-checks, logging intervals), all logged samples, all observations", "why_tests_cant": "The row written is an attribute of the sample that the last evaluation left behind, possibly from a cache and possibly of another sample object (rejected proposals, screen output, self-checks); a test looks at few runs, and the file itself has no labels that would reveal a wrong order.", "anchors": ["sbayes/sampling/loggers.py:LikelihoodLogger", "sbayes/model/likelihood.py:Likelihood.__call__", "sbayes/model/likelihood.py:Likelihood.get_observation_lhs", "sbayes/mcmc_setup.py:MCMCSetup.get_sample_loggers", "sbayes/sampling/mcmc.py:MCMC.generate_samples"]}
{"id": "C112", "title": "The shipped configuration template works when it is completed, and only then", "statement": "config_template.yaml with existing files, priors for all groups and a type of size prior in place of <REQUIRED>, and with the <OPTIONAL> lines deleted or empty, is accepted and means the same as a file with the required settings only: all values in the template are the defaults of the program. A placeholder that is left in place, required or optional, is always noticed: the configuration is rejected, whatever the other entries are. (So it is not enough to replace <REQUIRED>.)", "quantifier": "all environments (file systems, base directories) without files named like the placeholders, all entries a user can make in the template, and for the rejection all configurations", "why_tests_cant": "The template is a file that no test reads; that each of its values is the program's default and that each placeholder is rejected in every environment and context is a statement about all completions.", "anchors": ["sbayes/config/config_template.yaml", "sbayes/config/config.py: generate_template, SBayesConfig, BaseConfig"]}
{"id": "C113", "title": "The settings for plots are those of the user, and the defaults elsewhere", "statement": "Loading the settings file for plots keeps every value the user gives and fills in the default for every other setting, at any depth; the listed cluster and statistics files are read in the order of the list, relative to the directory of the settings file; the map is in the projection set for it, or in that of the data if none is set; density maps have no coloured labels; settings without the required files are rejected. (Partial: the default for the projection of the map, epsg:4326, comes before that of the data, unless the user sets the empty text or null; nothing is rejected: settings without input files are loaded, the placeholder <REQUIRED> is read as a list of ten one-letter files, and so is any single path that is not in a list.)", "quantifier": "all settings files (nested dictionaries of any shape), all directories, all settings paths", "why_tests_cant": "The settings are nested dictionaries with about a hundred optional keys; the merge, the conversion of lists and the later changes interact at every path.", "anchors": ["sbayes/plot.py: Plot.load_config, Plot.convert_config, Plot.verify_config", "sbayes/config/default_config_plot.json", "sbayes/util.py: set_defaults, fix_relative_path"]}
{"id": "C114", "title": "Averages over the log settle near the posterior means and stay there", "statement": "For every tolerance and every small probability there is a number of samples from which on the running averages of a bounded function over the logged samples (and the fractions of samples with a given feature) are within the tolerance of the posterior mean (probability) for all prefixes of the log at once, up to the end of a run of whatever length, except with that small probability. So stopping the run early, or at any time chosen by looking at the log, does not spoil the estimate. True from every initial state the model allows and for whole runs with warm-up, with and without source sampling.", "quantifier": "all data sets, models, initial states, random numbers for the initial clusters, numbers of chains and steps, bounded functions of the sample, tolerances, probabilities, lengths of the run", "why_tests_cant": "A strong law: it is about all later times of arbitrarily long runs at once, and convergence at each fixed time (C85, C88) does not imply it.", "anchors": ["sbayes/mcmc_setup.py: MCMCSetup.warm_up, MCMCSetup.sample", "sbayes/sampling/mcmc.py: MCMC.generate_samples, MCMC.step", "sbayes/sampling/sbayes_sampling.py: get_operators, generate_initial_sample"]}
{"id": "C115", "title": "The numbers of the clusters carry no information before matching", "statement": "Giving the clusters other numbers, and the cluster effects with them, leaves the posterior distribution as it is. So in the samples of a run as the sampler produces them the fraction that has a given object in the cluster with number k settles at the same value for every k, and that value is at most one over the number of clusters, however clear the evidence is: only after the clusters have been matched between samples (as the loggers do) do frequencies per cluster say where the clusters are.", "quantifier": "all data sets, models, permutations, objects, cluster numbers, initial states, random numbers, lengths of runs, tolerances, probabilities", "why_tests_cant": "A symmetry of a distribution over continuous and discrete parameters and a limit of arbitrarily long random runs.", "anchors": ["sbayes/model/model.py: Model.__call__", "sbayes/model/prior.py: ClusterSizePrior.__call__, GeoPrior.__call__, ClusterEffectPrior", "sbayes/model/likelihood.py: Likelihood.__call__", "sbayes/sampling/mcmc.py: MCMC.generate_samples", "sbayes/sampling/loggers.py: ClustersLogger, ParametersCSVLogger (match_clusters)"]}
{"id": "C116", "title": "With sample_from_prior and the uniform_size prior all cluster sizes are visited equally often", "statement": "In a whole run with sample_from_prior, the size prior uniform_size and no geo-prior, the fraction of the logged samples whose clusters have the sizes (v1, ..., vK) converges to one over the number of admissible vectors of sizes, for each admissible vector (sizes between min and max, not more objects in total than there are), however many ways there are to choose clusters of these sizes, whatever the data are and however the run is started, with and without source sampling.", "quantifier": "all data sets, numbers of clusters, size limits, admissible size vectors, initial states, random numbers, numbers of chains and steps, tolerances", "why_tests_cant": "The limit of arbitrarily long random runs; the number of clusterings per size vector is exponential.", "anchors": ["sbayes/model/prior.py: ClusterSizePrior.__call__", "sbayes/util.py: log_multinom", "sbayes/sampling/mcmc.py: MCMC.likelihood, MCMC.generate_samples", "sbayes/sampling/operators.py: AlterCluster, AlterClusterGibbsish, AlterClusterGibbsish2 (sample_from_prior)"]}
{"id": "C117", "title": "With sample_from_prior and the uniform_area prior all admissible assignments are visited equally often", "statement": "In a whole run with sample_from_prior, the size prior uniform_area and no geo-prior, the fraction of the logged samples whose clusters satisfy any given condition converges to the fraction of the admissible assignments (disjoint clusters, sizes between min and max) that satisfy it, whatever the data are, however the run is started and which of the neighbourhood-based proposals are made, with and without source sampling.", "quantifier": "all data sets, numbers of clusters, size limits, conditions on the clusters, neighbourhood graphs, initial states, random numbers, numbers of chains and steps, tolerances", "why_tests_cant": "The limit of arbitrarily long random runs; the number of assignments is exponential.", "anchors": ["sbayes/model/prior.py: ClusterSizePrior.__call__, GeoPrior.__call__", "sbayes/sampling/mcmc.py: MCMC.likelihood, MCMC.generate_samples", "sbayes/sampling/operators.py: AlterCluster, AlterClusterGibbsish, AlterClusterGibbsish2 (sample_from_prior)"]}
{"id": "C118", "title": "With sample_from_prior and the quadratic size prior clusters are visited with probability proportional to 1/size^2", "statement": "In a whole run with sample_from_prior, the size prior quadratic and no geo-prior, the fraction of the logged samples whose clusters are the given ones converges to a probability proportional to the product over the clusters of 1/size^2 (zero unless the clusters are disjoint with sizes within the limits), whatever the data are and however the run is started, with and without source sampling.", "quantifier": "all data sets, numbers of clusters, size limits (min at least 1), clusterings, initial states, random numbers, numbers of chains and steps, tolerances", "why_tests_cant": "The limit of arbitrarily long random runs; the normalising constant is a sum over exponentially many clusterings.", "anchors": ["sbayes/model/prior.py: ClusterSizePrior.__call__", "sbayes/sampling/mcmc.py: MCMC.likelihood, MCMC.generate_samples", "sbayes/sampling/operators.py: AlterCluster, AlterClusterGibbsish, AlterClusterGibbsish2 (sample_from_prior)"]}
{"id": "C119", "title": "With sample_from_prior weights and cluster effects are sampled uniformly", "statement": "In a whole run with sample_from_prior, the fraction of the logged samples whose weights and cluster effects lie in any given set converges to the probability of this set when all weight vectors and all cluster effects are independent and uniformly distributed on the probability vectors (the effects on those over the applicable states), whatever the data, the size prior, the geo-prior and the priors of the confounding effects are and however the run is started, with and without source sampling.", "quantifier": "all data sets, priors, measurable sets of weights and effects, initial states, random numbers, numbers of chains and steps, tolerances", "why_tests_cant": "The limit of arbitrarily long random runs, with continuous parameters.", "anchors": ["sbayes/model/prior.py: Prior.__call__, WeightsPrior, ClusterEffectPrior", "sbayes/sampling/mcmc.py: MCMC.likelihood, MCMC.generate_samples", "sbayes/sampling/operators.py: AlterWeights, GibbsSampleWeights, AlterClusterEffect, GibbsSampleClusterEffect, GibbsSampleSource (sample_from_prior)"]}
{"id": "C120", "title": "With sample_from_prior all parameters follow the configured prior", "statement": "In a whole run with sample_from_prior, the fraction of the logged samples with clusters in a set A and weights, cluster effects and confounding effects in a set B converges to the prior probability of A (proportional to size prior times geo-prior on the admissible clusterings) times the probability of B when weights and cluster effects are uniform on the probability vectors, the confounding effect of each group and feature is Dirichlet distributed with the configured parameters, and all are independent; whatever the data are and however the run is started, with and without source sampling.", "quantifier": "all data sets, priors, sets of clusterings, measurable sets of parameters, initial states, random numbers, numbers of chains and steps, tolerances", "why_tests_cant": "The limit of arbitrarily long random runs over discrete and continuous parameters.", "anchors": ["sbayes/model/prior.py: Prior.__call__, ConfoundingEffectsPrior, WeightsPrior, ClusterEffectPrior, compute_group_effect_prior", "sbayes/sampling/mcmc.py: MCMC.likelihood, MCMC.generate_samples", "sbayes/sampling/operators.py: GibbsSampleConfoundingEffects, AlterConfoundingEffects (sample_from_prior)"]}
