{
 "claims": [
  {
   "property": "C01",
   "status": "proved",
   "theorems": [
    "OpenGM.C01_evaluate",
    "OpenGM.C01_order"
   ],
   "note": "every valid history of addVariable/addFunction/addSharedFunction/addFactor; values in any type; order independence for commutative monoids; floating point rounding not modelled"
  },
  {
   "property": "C02",
   "status": "proved",
   "theorems": [
    "OpenGM.C02_adjacency"
   ],
   "note": ""
  },
  {
   "property": "C03",
   "status": "proved",
   "theorems": [
    "OpenGM.C03_finalize"
   ],
   "note": "equality of all data members; for factors whose function exists and fits the variables"
  },
  {
   "property": "C04",
   "status": "partial",
   "theorems": [
    "OpenGM.C04_rejected_partial",
    "OpenGM.C04_violated",
    "OpenGM.C04_witness"
   ],
   "note": "the code violates the property: every rejected addFactor leaves one more factor behind (proved); what is kept and when it throws is proved"
  },
  {
   "property": "C05",
   "status": "proved",
   "theorems": [
    "OpenGM.C05_identifiers",
    "OpenGM.C05_stable",
    "OpenGM.C05_shared",
    "OpenGM.C05_nodup"
   ],
   "note": "operator== of the function classes by contract (EqvSound)"
  },
  {
   "property": "C06",
   "status": "partial",
   "theorems": [
    "OpenGM.C06_violated",
    "OpenGM.C06_order_partial",
    "OpenGM.C06_le_violated",
    "OpenGM.C06_eq"
   ],
   "note": "the code violates the property for identifiers of different types (proved); strict total order within one type; <= and >= are constantly true within one type"
  },
  {
   "property": "C07",
   "status": "proved",
   "theorems": [
    "OpenGM.ModelStore.C07_refines",
    "OpenGM.ModelStore.C07_independent",
    "OpenGM.ModelStore.C07_equal"
   ],
   "note": "any number of objects; copies, assignments (same and different type lists), self assignment, destruction; factors hold pointers into the owning object and evaluation follows them"
  },
  {
   "property": "C08",
   "status": "proved",
   "theorems": [
    "OpenGM.factorGraph_of_history",
    "OpenGM.FG.C08_variableFactor",
    "OpenGM.FG.C08_variableVariable",
    "OpenGM.FG.C08_factorFactor"
   ],
   "note": "std::binary_search by its algorithmic definition via lower_bound"
  },
  {
   "property": "C09",
   "status": "proved",
   "theorems": [
    "OpenGM.factorGraph_of_history",
    "OpenGM.FG.C09_adjacencyList",
    "OpenGM.FG.C09_adjacencyMatrix"
   ],
   "note": ""
  },
  {
   "property": "C10",
   "status": "partial",
   "theorems": [
    "OpenGM.FG.C10_factorAdjacency_partial",
    "OpenGM.FG.C10_initial_partial",
    "OpenGM.FG.C10_violated"
   ],
   "note": "the code violates the property (proved): it visits the variables 0..order-1 instead of the factor's variables"
  },
  {
   "property": "C11",
   "status": "proved",
   "theorems": [
    "OpenGM.FG.C11_isConnected",
    "OpenGM.FG.C11_empty",
    "OpenGM.FG.C11_order0"
   ],
   "note": "order-0 factors make the call undefined (proved)"
  },
  {
   "property": "C12",
   "status": "proved",
   "theorems": [
    "OpenGM.FG.C12_isAcyclic"
   ],
   "note": "against Mathlib's SimpleGraph.IsAcyclic of the bipartite graph; includes termination"
  },
  {
   "property": "C13",
   "status": "proved",
   "theorems": [
    "OpenGM.C13_factorOrder",
    "OpenGM.FG.C13_maxFactorOrderLe",
    "OpenGM.FG.C13_maxFactorOrder"
   ],
   "note": ""
  },
  {
   "property": "C14",
   "status": "proved",
   "theorems": [
    "OpenGM.C14_value",
    "OpenGM.C14_move",
    "OpenGM.C14_construct"
   ],
   "note": "over all reachable Movemaker objects"
  },
  {
   "property": "C15",
   "status": "proved",
   "theorems": [
    "OpenGM.C15_valueAfterMove"
   ],
   "note": ""
  },
  {
   "property": "C16",
   "status": "proved",
   "theorems": [
    "OpenGM.C16_moveOptimally",
    "OpenGM.C16_unchanged"
   ],
   "note": ""
  },
  {
   "property": "C17",
   "status": "partial",
   "theorems": [
    "OpenGM.C17_allLabelsChanging_partial",
    "OpenGM.C17_violated"
   ],
   "note": "The code violates the property when a listed variable has one label: the state buffer is left inconsistent (C17_violated). Proved when all listed variables have at least two labels."
  },
  {
   "property": "C18",
   "status": "partial",
   "theorems": [
    "OpenGM.C18_construct",
    "OpenGM.C18_icm_partial",
    "OpenGM.C18_violated"
   ],
   "note": "Single-variable optimality is false for products with zeros (C18_violated); proved for operations that preserve strict improvement (sums, products of positive values). Termination, value and monotonicity included."
  },
  {
   "property": "C19",
   "status": "partial",
   "theorems": [
    "OpenGM.C19_icmFactor_partial",
    "OpenGM.C19_violated"
   ],
   "note": "Factor-wise optimality is false (C19_violated): only flags of factors of changed variables are reset, not of their neighbours' factors."
  },
  {
   "property": "C20",
   "status": "proved",
   "theorems": [
    "OpenGM.C20_bruteforce",
    "OpenGM.C20_construct",
    "OpenGM.minimizer_acc"
   ],
   "note": ""
  },
  {
   "property": "C21",
   "status": "proved",
   "theorems": [
    "OpenGM.Walkers.C21_shapeWalker",
    "OpenGM.Walkers.C21_switchedOrder",
    "OpenGM.Walkers.C21_allTuples",
    "OpenGM.Walkers.C21_allTuplesLast"
   ],
   "note": ""
  },
  {
   "property": "C22",
   "status": "proved",
   "theorems": [
    "OpenGM.Walkers.C22_subShapeWalker"
   ],
   "note": ""
  },
  {
   "property": "C23",
   "status": "proved",
   "theorems": [
    "OpenGM.Walkers.C23_tripleShapeWalker",
    "OpenGM.Walkers.C23_doubleShapeWalker"
   ],
   "note": ""
  },
  {
   "property": "C24",
   "status": "partial",
   "theorems": [
    "OpenGM.FactorOps.C24_binary_partial",
    "OpenGM.FactorOps.C24_inplace_partial",
    "OpenGM.FactorOps.C24_unary_partial",
    "OpenGM.FactorOps.C24_unary_inplace",
    "OpenGM.FactorOps.C24_binary_violated",
    "OpenGM.FactorOps.C24_inplace_violated",
    "OpenGM.FactorOps.C24_unary_violated"
   ],
   "note": "operations whose operands all lack variables resize the result to shape {0} and write out of range (violated witnesses); proved for all others"
  },
  {
   "property": "C25",
   "status": "partial",
   "theorems": [
    "OpenGM.FactorOps.C25_accumulate_partial",
    "OpenGM.FactorOps.C25_inplace_partial",
    "OpenGM.FactorOps.C25_accumulateAll",
    "OpenGM.FactorOps.C25_minimum",
    "OpenGM.FactorOps.C25_argmin",
    "OpenGM.FactorOps.C25_accumulate_violated",
    "OpenGM.FactorOps.C25_inplace_violated"
   ],
   "note": "accumulating variables of a factor without variables accumulates 0 instead of its value, in place it writes out of range (violated witnesses); proved for all factors with variables"
  },
  {
   "property": "C26",
   "status": "proved",
   "theorems": [
    "OpenGM.FactorOps.C26_fixVariables"
   ],
   "note": ""
  },
  {
   "property": "C27",
   "status": "proved",
   "theorems": [
    "OpenGM.ViewFix.C27_value",
    "OpenGM.ViewFix.C27_covers",
    "OpenGM.ViewFix.C27_shape",
    "OpenGM.ViewFix.C27_unsorted"
   ],
   "note": "positions sorted (documented precondition); C27_unsorted shows it is needed"
  },
  {
   "property": "C28",
   "status": "partial",
   "theorems": [
    "OpenGM.Manipulator.C28_runs_partial",
    "OpenGM.Manipulator.C28_modifiedModel_partial",
    "OpenGM.Manipulator.C28_submodels_partial",
    "OpenGM.Manipulator.C28_components_partial",
    "OpenGM.Manipulator.C28_nolock_violated",
    "OpenGM.Manipulator.C28_tentacle_partial",
    "OpenGM.Manipulator.C28_tentacle_violated"
   ],
   "note": "All histories of fix, free, freeAll, lock, unlock, build, buildSub. Violated: building without lock; lockAndTentacelElimination is undefined for every model with a leaf whose index is not below the number of factors. Missing: what lockAndTentacelElimination does after it has found the leafs; submodels in mode FIX of models with a factor without variables."
  },
  {
   "property": "C29",
   "status": "partial",
   "theorems": [
    "OpenGM.C29_dynamicProgramming_partial",
    "OpenGM.C29_arg_unknown",
    "OpenGM.C29_isAcyclic",
    "OpenGM.C29_violated_roots",
    "OpenGM.C29_violated_infinite"
   ],
   "note": "Proved for every forest of order at most two and every reachable object, for values strictly better than ACC's neutral element and for roots that cover the trees of the first variables (in particular the default: no roots). Both restrictions are necessary: witnesses of undefined behaviour without them are proved."
  },
  {
   "property": "C30",
   "status": "proved",
   "theorems": [
    "OpenGM.RandomAccessSet.C30_history",
    "OpenGM.RandomAccessSet.C30_queries",
    "OpenGM.RandomAccessSet.C30_size"
   ],
   "note": "any linear order; std::lower_bound by contract"
  },
  {
   "property": "C31",
   "status": "proved",
   "theorems": [
    "OpenGM.Partition.C31_find",
    "OpenGM.Partition.C31_find_pure",
    "OpenGM.Partition.C31_numberOfSets",
    "OpenGM.Partition.C31_elementLabeling"
   ],
   "note": "while loops with fuel = number of elements, shown to suffice"
  },
  {
   "property": "C32",
   "status": "proved",
   "theorems": [
    "OpenGM.PQ.C32_new",
    "OpenGM.PQ.C32_calls",
    "OpenGM.PQ.C32_exact",
    "OpenGM.PQ.C32_observers",
    "OpenGM.PQ.C32_equivalent_violated"
   ],
   "note": "all queues reachable by valid calls, strict weak orders; priorities replaced by equivalent ones may be kept (C32_equivalent_violated shows it happens; C32_exact excludes it for total orders)"
  },
  {
   "property": "C33",
   "status": "partial",
   "theorems": [
    "OpenGM.Sequences.C33_fastSequence_partial",
    "OpenGM.Sequences.C33_fastSequence_unshared_partial",
    "OpenGM.Sequences.C33_fastSequence_small_partial",
    "OpenGM.Sequences.C33_bufferVector_partial",
    "OpenGM.Sequences.C33_bufferVector_simple_partial",
    "OpenGM.Sequences.C33_violated_copy",
    "OpenGM.Sequences.C33_violated_copy_destroy",
    "OpenGM.Sequences.C33_violated_assign",
    "OpenGM.Sequences.C33_violated_assign_leak",
    "OpenGM.Sequences.C33_violated_pushOwn",
    "OpenGM.Sequences.C33_violated_reserve",
    "OpenGM.Sequences.C33_violated_uninitialised",
    "OpenGM.Sequences.C33_violated_copy_empty",
    "OpenGM.Sequences.C33_violated_resize_leak",
    "OpenGM.Sequences.C33_violated_fill_leak",
    "OpenGM.Sequences.C33_violated_bufferVector_pushOwn"
   ],
   "note": "memory safety and list semantics proved for all histories that avoid the listed calls; copies and assignments of sequences with spare capacity, self-references while growing, reserve beyond capacity etc. fail (violated)"
  },
  {
   "property": "C34",
   "status": "proved",
   "theorems": [
    "OpenGM.Marray.C34_scan",
    "OpenGM.Marray.C34_index_coordinates",
    "OpenGM.Marray.C34_offsets"
   ],
   "note": ""
  },
  {
   "property": "C35",
   "status": "proved",
   "theorems": [
    "OpenGM.Marray.C35_permute",
    "OpenGM.Marray.C35_transpose_two",
    "OpenGM.Marray.C35_transpose_all",
    "OpenGM.Marray.C35_shift",
    "OpenGM.Marray.C35_boundView",
    "OpenGM.Marray.C35_squeeze",
    "OpenGM.Marray.C35_view",
    "OpenGM.Marray.C35_reshape"
   ],
   "note": ""
  },
  {
   "property": "C36",
   "status": "partial",
   "theorems": [
    "OpenGM.Marray.C36_resize_partial",
    "OpenGM.Marray.C36_resize_empty",
    "OpenGM.Marray.C36_resize_violated"
   ],
   "note": "resize [1,3] -> [3,1] has undefined behaviour: both overlaps squeeze to non-simple views of dimension 0 (violated witness); proved when the shapes share an extent >= 2, the target has one element, or the array is a scalar or empty"
  },
  {
   "property": "C37",
   "status": "partial",
   "theorems": [
    "OpenGM.Functions.C37_potts_denotes",
    "OpenGM.Functions.C37_pottsN_denotes",
    "OpenGM.Functions.C37_constant_denotes",
    "OpenGM.Functions.C37_difference_denotes",
    "OpenGM.Functions.C37_fallback",
    "OpenGM.Functions.C37_constant",
    "OpenGM.Functions.C37_potts_sum_product",
    "OpenGM.Functions.C37_potts_minMax_partial",
    "OpenGM.Functions.C37_violated_potts"
   ],
   "note": "min, max and minMax of a Potts function with one label per variable report valueNotEqual although no entry has it (violated); proved otherwise, for every function and for the closed forms of Potts and constant functions"
  },
  {
   "property": "C38",
   "status": "partial",
   "theorems": [
    "OpenGM.Functions.C38_potts",
    "OpenGM.Functions.C38_pottsN",
    "OpenGM.Functions.C38_constant",
    "OpenGM.Functions.C38_absoluteDifference",
    "OpenGM.Functions.C38_squaredDifference",
    "OpenGM.Functions.C38_truncatedDifference",
    "OpenGM.Functions.C38_explicit_partial",
    "OpenGM.Functions.C38_cloneAsExplicit",
    "OpenGM.Functions.C38_sparse",
    "OpenGM.Functions.C38_pottsG",
    "OpenGM.Functions.C38_violated_default"
   ],
   "note": "round trip proved for all function types listed; a default-constructed ExplicitFunction cannot be serialized (violated)"
  },
  {
   "property": "C39",
   "status": "partial",
   "theorems": [
    "OpenGM.Hdf5.C39_save_load_partial",
    "OpenGM.Hdf5.C39_unknown_throws",
    "OpenGM.Hdf5.C39_violated_hidden",
    "OpenGM.Hdf5.C39_violated_noVariables",
    "OpenGM.Hdf5.C39_violated_notEmpty"
   ],
   "note": "Proved for every built model with function objects of ten classes, every pair of type lists and every reachable partition table: the loaded model has the same label counts, factors (objects and variables), adjacency, order and values; a missing class with functions throws. The hypothesis NotHidden is needed (C39_violated_hidden: an unknown class without functions hides the class at position 0), as are a variable and non-empty values (C39_violated_noVariables). File system errors, value type conversion and the learnable, constraint and single site classes are not modelled."
  },
  {
   "property": "C40",
   "status": "partial",
   "theorems": [
    "OpenGM.Functions.C40_isPotts_partial",
    "OpenGM.Functions.C40_violated_isPotts_unary",
    "OpenGM.Functions.C40_declared_potts",
    "OpenGM.Functions.C40_isGeneralizedPotts_partial",
    "OpenGM.Functions.C40_violated_isGeneralizedPotts_order",
    "OpenGM.Functions.C40_violated_isGeneralizedPotts_range",
    "OpenGM.Functions.C40_equality",
    "OpenGM.Functions.C40_potts_equality",
    "OpenGM.Functions.C40_isDifference_partial",
    "OpenGM.Functions.C40_isDifference_tolerance",
    "OpenGM.Functions.C40_violated_isDifference_range",
    "OpenGM.Functions.C40_isTruncated_exact",
    "OpenGM.Functions.C40_isTruncated_complete_partial",
    "OpenGM.Functions.C40_violated_isTruncated_complete",
    "OpenGM.Functions.C40_violated_isTruncated_sound",
    "OpenGM.Functions.C40_isSubmodular"
   ],
   "note": "isPotts is wrong for one variable with three or more labels, isGeneralizedPotts for order 1 and above 4 and reads out of range for few labels, the truncated predicates accept and reject wrongly in some cases (all violated); the exact conditions under which they are right are proved"
  },
  {
   "property": "C41",
   "status": "partial",
   "theorems": [
    "OpenGM.GraphCut.C41_cut_value",
    "OpenGM.GraphCut.C41_cut_value_general",
    "OpenGM.GraphCut.C41_graphcut_partial",
    "OpenGM.GraphCut.C41_throws",
    "OpenGM.GraphCut.C41_added_factors",
    "OpenGM.GraphCut.C41_not_inferred",
    "OpenGM.GraphCut.C41_violated_infer_twice",
    "OpenGM.GraphCut.C41_violated_order3",
    "OpenGM.GraphCut.C41_violated_order3_range"
   ],
   "note": "proved for factors of order at most two; factors of order three are reduced wrongly or access memory out of range, and a second call of infer counts the unary terms twice (violated)"
  },
  {
   "property": "C42",
   "status": "partial",
   "theorems": [
    "OpenGM.AlphaExpansion.C42_alphaExpansion_partial",
    "OpenGM.AlphaExpansion.C42_construct",
    "OpenGM.AlphaExpansion.C42_violated_optimal",
    "OpenGM.AlphaExpansion.C42_violated_monotone",
    "OpenGM.AlphaExpansion.C42_violated_labels",
    "OpenGM.AlphaExpansion.C42_violated_localOpt",
    "OpenGM.AlphaExpansion.C42_violated_localOpt_range"
   ],
   "note": "monotonicity proved for Potts terms and equal label numbers over any history of calls; for metric terms the energy can increase, and even for Potts terms the expansion is not optimal (violated)"
  },
  {
   "property": "C43",
   "status": "partial",
   "theorems": [
    "OpenGM.Ops.C43_adder",
    "OpenGM.Ops.C43_multiplier",
    "OpenGM.Ops.C43_minimizer_partial",
    "OpenGM.Ops.C43_maximizer_partial",
    "OpenGM.Ops.C43_violated_integral",
    "OpenGM.Ops.C43_and_or",
    "OpenGM.Ops.C43_violated_and",
    "OpenGM.Ops.C43_integrator_partial",
    "OpenGM.Ops.C43_violated_integrator",
    "OpenGM.Ops.C43_logsumexp_partial",
    "OpenGM.Ops.C43_violated_logsumexp"
   ],
   "note": "Adder, Multiplier, And/Or on bool: proved. Minimizer/Maximizer: proved when the type has an infinity; violated for integers. Integrator's in-place inverse and the three-argument form of Logsumexp are violated by the code."
  },
  {
   "property": "C44",
   "status": "partial",
   "theorems": [
    "OpenGM.Accumulation.C44_value",
    "OpenGM.Accumulation.C44_state",
    "OpenGM.Accumulation.C44_violated_neutral"
   ],
   "note": "value() and state() proved for every history; the member neutral() returns the size of the state (violated)"
  },
  {
   "property": "C45",
   "status": "partial",
   "theorems": [
    "OpenGM.Util.C45_isSorted",
    "OpenGM.Util.C45_find",
    "OpenGM.Util.C45_find_violated",
    "OpenGM.Util.C45_doubleSort"
   ],
   "note": "proved for all sequences; findInSortedSequence on an empty sequence reads before its beginning (violated)"
  },
  {
   "property": "C46",
   "status": "partial",
   "theorems": [
    "OpenGM.Partitions.C46_label2Number",
    "OpenGM.Partitions.C46_partitions_partial",
    "OpenGM.Partitions.C46_throw",
    "OpenGM.Partitions.C46_violated_large",
    "OpenGM.Partitions.C46_violated_empty"
   ],
   "note": "proved for at most 15 elements whose pairs fit the number type, after every history of calls; 16 or more elements read the Bell table out of range, and getPartition with an empty result object writes out of range (both violated)"
  },
  {
   "property": "C47",
   "status": "proved",
   "theorems": [
    "OpenGM.Util.C47_pow"
   ],
   "note": "all bases, exponents and word sizes"
  },
  {
   "property": "C48",
   "status": "partial",
   "theorems": [
    "OpenGM.Util.Tribool.C48_tribool_partial",
    "OpenGM.Util.Tribool.C48_violated",
    "OpenGM.Util.Tribool.C48_violated_eq",
    "OpenGM.Util.Tribool.C48_andAssign"
   ],
   "note": "operator!=(false) and the comparison of two Tribools do not follow the specification (violated); the rest is proved"
  },
  {
   "property": "C49",
   "status": "partial",
   "theorems": [
    "OpenGM.C49_tagging",
    "OpenGM.C49_construct",
    "OpenGM.C49_setters",
    "OpenGM.C49_infer_partial",
    "OpenGM.C49_optimal_partial",
    "OpenGM.C49_violated_second",
    "OpenGM.C49_violated_singleLabel"
   ],
   "note": "Proved: Tagging for all histories; on all reachable objects infer ends, value() = evaluate(arg()), unchanged or strictly better; after the first unstopped call no labeling at Hamming distance at most maxSubgraphSize() is better. Missing: variables with one label and the optimality of later calls; both are false of the code (violations proved)."
  },
  {
   "property": "C50",
   "status": "partial",
   "theorems": [
    "OpenGM.Decomposition.C50_operations",
    "OpenGM.Decomposition.C50_numbered",
    "OpenGM.Decomposition.C50_reorder",
    "OpenGM.Decomposition.C50_reorder_sorted",
    "OpenGM.Decomposition.C50_complete",
    "OpenGM.Decomposition.C50_isValid",
    "OpenGM.Decomposition.C50_isValid_sound",
    "OpenGM.Decomposition.C50_violated_emptyId",
    "OpenGM.Decomposition.C50_violated_isValid",
    "OpenGM.Decomposition.C50_violated_isValid_short",
    "OpenGM.Decomposition.C50_violated_isValid_size"
   ],
   "note": "Proved for all histories that add sub-factors with copies of the factor's variables. Violated parts: the number of a sub-factor without factor is not stored; isValid accepts sub-factors at the wrong variables and reads out of range for short index lists or models of another size."
  },
  {
   "property": "C51",
   "status": "proved",
   "theorems": [
    "OpenGM.FG.C51_nthOrder_count",
    "OpenGM.FG.C51_nthOrder_ids",
    "OpenGM.FG.C51_secondVariable"
   ],
   "note": ""
  },
  {
   "property": "C53",
   "status": "partial",
   "theorems": [
    "OpenGM.Marray.C53_iterate_partial",
    "OpenGM.Marray.C53_iterate_violated"
   ],
   "note": "squeezing an all-singleton strided view leaves isSimple false; its iterator reads out of range (violated witness); proved for all other views"
  },
  {
   "property": "C54",
   "status": "partial",
   "theorems": [
    "OpenGM.Marray.C54_decrement_partial",
    "OpenGM.Marray.C54_decrement_violated"
   ],
   "note": "operator-- from the end iterator of a strided view refers to the wrong element (violated witness); proved for all positions before the end"
  },
  {
   "property": "C55",
   "status": "partial",
   "theorems": [
    "OpenGM.Marray.C55_copy_partial",
    "OpenGM.Marray.C55_copy_violated"
   ],
   "note": "same defect as C53 for squeezed views of dimension 0; proved for all other views"
  },
  {
   "property": "C56",
   "status": "partial",
   "theorems": [
    "OpenGM.FactorOps.C56_ofFactor",
    "OpenGM.FactorOps.C56_constant_partial",
    "OpenGM.FactorOps.C56_constant_violated"
   ],
   "note": "a constant factor without variables gets the value T() (violated witness)"
  },
  {
   "property": "C57",
   "status": "proved",
   "theorems": [
    "OpenGM.FactorOps.C57_history",
    "OpenGM.FactorOps.C57_subtractOffset"
   ],
   "note": "histories exclude the operations on factors without variables that C24, C25 show to be undefined"
  },
  {
   "property": "C52",
   "status": "partial",
   "theorems": [
    "OpenGM.ModelStore.C52_equal",
    "OpenGM.ModelStore.C52_throws",
    "OpenGM.ModelStore.C52_strong_violated",
    "OpenGM.ModelStore.C52_stale_violated"
   ],
   "note": "equality and the exception are proved; a throwing assignment changes its target (violated), and functions kept from before can make a later assignment throw (violated)"
  },
  {
   "property": "C58",
   "status": "partial",
   "theorems": [
    "OpenGM.Fifo.C58_fifo_partial",
    "OpenGM.Fifo.C58_reuse_violated"
   ],
   "note": "proved for at most maxSize pushes since the last clear(); beyond that the code writes out of range (violated)"
  },
  {
   "property": "C59",
   "status": "partial",
   "theorems": [
    "OpenGM.Ops.C59_weighted",
    "OpenGM.Ops.C59_violated_aliasing"
   ],
   "note": "proved for separate objects; with out aliasing in2 the result is wrong (violated; only an assertion guards it)"
  },
  {
   "property": "C60",
   "status": "partial",
   "theorems": [
    "OpenGM.Functions.PottsG.C60_pottsG",
    "OpenGM.Functions.PottsG.C60_isPotts_partial",
    "OpenGM.Functions.PottsG.C60_violated_isPotts",
    "OpenGM.Functions.PottsG.C60_violated_default",
    "OpenGM.Functions.PottsG.C60_violated_order"
   ],
   "note": "proved for up to eleven variables and any history; isPotts misses Potts functions with few labels and reads out of range on a default-constructed object, twelve or more variables fail (violated)"
  },
  {
   "property": "C61",
   "status": "partial",
   "theorems": [
    "OpenGM.Functions.C61_sparse_partial",
    "OpenGM.Functions.C61_sparse_distinct_partial",
    "OpenGM.Functions.C61_violated_overwrite",
    "OpenGM.Functions.C61_violated_overwrite_always"
   ],
   "note": "proved for histories without repeated coordinates; inserting at a coordinate again has no effect (violated)"
  },
  {
   "property": "C62",
   "status": "partial",
   "theorems": [
    "OpenGM.Decomposer.C62_manual",
    "OpenGM.Decomposer.C62_manual_valid",
    "OpenGM.Decomposer.C62_tree",
    "OpenGM.Decomposer.C62_tree_acyclic",
    "OpenGM.Decomposer.C62_spanningTrees",
    "OpenGM.Decomposer.C62_kFans",
    "OpenGM.Decomposer.C62_kFans_throws",
    "OpenGM.Decomposer.C62_kFans_valid",
    "OpenGM.Decomposer.C62_kFansOfSize",
    "OpenGM.Decomposer.C62_openBlocks",
    "OpenGM.Decomposer.C62_closedBlocks",
    "OpenGM.Decomposer.C62_closedBlocks_valid",
    "OpenGM.Decomposer.C62_violated"
   ],
   "note": "All decomposers except decomposeIntoClosedBlocks(gm, numBlocks), which uses floating point. Violated: no factors gives no spanning tree and thus an invalid decomposition, no variables gives no fan, open blocks can miss factors, fans of size zero are undefined."
  },
  {
   "property": "C63",
   "status": "partial",
   "theorems": [
    "OpenGM.DualDecomposition.C63_construct",
    "OpenGM.DualDecomposition.C63_sum",
    "OpenGM.DualDecomposition.C63_infer",
    "OpenGM.DualDecomposition.C63_submodels",
    "OpenGM.DualDecomposition.C63_value",
    "OpenGM.DualDecomposition.C63_bound",
    "OpenGM.DualDecomposition.C63_converged",
    "OpenGM.DualDecomposition.C63_agreement",
    "OpenGM.DualDecomposition.C63_tree",
    "OpenGM.DualDecomposition.C63_violated_no_submodel",
    "OpenGM.DualDecomposition.C63_violated_openBlocks"
   ],
   "note": "For all decompositions except BLOCKS (floating point), values in a linearly ordered field. Violated: a decomposition without submodels (spanning trees of a model without factors) makes infer read an empty vector, and open blocks that miss a factor give a bound that is not one."
  },
  {
   "property": "C64",
   "status": "partial",
   "theorems": [
    "OpenGM.C64_infer_partial",
    "OpenGM.C64_next_partial",
    "OpenGM.C64_standard_partial",
    "OpenGM.C64_violated_second",
    "OpenGM.C64_violated_parallel",
    "OpenGM.C64_violated_triple",
    "OpenGM.C64_violated_unknown",
    "OpenGM.C64_violated_heapSize",
    "OpenGM.C64_violated_bound",
    "OpenGM.C64_violated_boundOfMany"
   ],
   "note": "Proved for models with factors of at most two variables, tree factors without a cycle, a heap that holds all labelings, any commutative operation that a total order reflects, any correct heap algorithm: the first call returns the best labelings in order; k calls enumerate the k*numberOfOpt best ones. With STANDARDHEURISTIC for any order of factors if its bounds (belief propagation, not modelled) do not overestimate. The other cases are false of the code (violations proved), except heaps too small for all labelings but large enough, and tree factors with cycles."
  },
  {
   "property": "C65",
   "status": "partial",
   "theorems": [
    "OpenGM.AlphaBetaSwap.C65_swap_partial",
    "OpenGM.AlphaBetaSwap.C65_fixpoint",
    "OpenGM.AlphaBetaSwap.C65_start",
    "OpenGM.AlphaBetaSwap.C65_construct",
    "OpenGM.AlphaBetaSwap.C65_violated_early",
    "OpenGM.AlphaBetaSwap.C65_violated_labels"
   ],
   "note": "Proved for every exact solver and every reachable object: each step is a best swap, energy never worse, termination; a call that changes nothing certifies that no swap is better; what the constructor accepts. False of the code: the last labeling need not be optimal among swaps (countUnchanged is never set back), and different numbers of labels lead to an access out of range (violations proved)."
  },
  {
   "property": "C66",
   "status": "partial",
   "theorems": [
    "OpenGM.C66_defined",
    "OpenGM.C66_marginals_partial",
    "OpenGM.C66_violated_normalization",
    "OpenGM.C66_violated_reset"
   ],
   "note": "Proved for every semiring of values, every reachable object and every acyclic model (factors of any order): infer ends, the marginals of variables and factors are exact up to a common factor, which is neutral without normalisation on connected models and the partition function with normalisation. Missing: small sums are not normalised, and reset keeps old messages (violations proved); the updates of cyclic models are not modelled."
  },
  {
   "property": "C67",
   "status": "partial",
   "theorems": [
    "OpenGM.C67_arg_optimal",
    "OpenGM.C67_constrained_partial",
    "OpenGM.C67_modeFromMarginal_partial",
    "OpenGM.C67_violated_constrained",
    "OpenGM.C67_violated_ties"
   ],
   "note": "Proved: arg is optimal, in full, with ties. constrainedOptimum is proved if no two given variables are connected, and false otherwise (violation proved). modeFromMarginal: every label is that of some optimal labeling, and the labeling is optimal if the optimum is unique; false with ties (violation proved; arg does not use it)."
  },
  {
   "property": "C68",
   "status": "proved",
   "theorems": [
    "OpenGM.DisjointSet.C68_disjointSet"
   ],
   "note": "Refinement to the equivalence relation generated by the joined pairs (the specification of C12), for all histories. Copying a disjoint_set (which shares the array) is not modelled."
  },
  {
   "property": "C69",
   "status": "partial",
   "theorems": [
    "OpenGM.C69_construct",
    "OpenGM.C69_infer_partial",
    "OpenGM.C69_flipped_partial",
    "OpenGM.C69_violated_arg",
    "OpenGM.C69_violated_start"
   ],
   "note": "Proved for models in which every variable has at least two labels (LazyFlipper's own restriction, C49). False: arg() before infer (violation proved); not worse than the starting point when the visitor stops or maxSubgraphSize is 0 (violation proved)."
  },
  {
   "property": "C70",
   "status": "partial",
   "theorems": [
    "OpenGM.C70_model",
    "OpenGM.C70_fuse_partial",
    "OpenGM.C70_exact",
    "OpenGM.C70_lazy",
    "OpenGM.C70_same",
    "OpenGM.C70_qpboTerms",
    "OpenGM.C70_qpbo",
    "OpenGM.C70_qpbo_order",
    "OpenGM.C70_violated_unknown",
    "OpenGM.C70_fixQpbo_partial",
    "OpenGM.C70_violated_fixQpbo"
   ],
   "note": "Proved for all solvers that answer a labeling. False for a solver with the status UNKNOWN: the value and the result do not fit together; fuseFixQpbo exchanges the arguments in factors of order two and more, so it is not worse than the arguments but not the best mixture (violations proved). Not modelled: AD3, CPLEX and reduced inference."
  },
  {
   "property": "C71",
   "status": "partial",
   "theorems": [
    "OpenGM.C71_add",
    "OpenGM.C71_quadratic",
    "OpenGM.C71_minimum",
    "OpenGM.C71_persistent",
    "OpenGM.C71_violated_clear",
    "OpenGM.C71_violated_unsorted",
    "OpenGM.C71_violated_constant"
   ],
   "note": "Proved for monomials whose variables are given in increasing order. False for other orders (AddTerm does not say that it needs the order), after Clear, and for the constant (violations proved)."
  },
  {
   "property": "C72",
   "status": "partial",
   "theorems": [
    "OpenGM.C72_construct",
    "OpenGM.C72_infer",
    "OpenGM.C72_violated_labels",
    "OpenGM.C72_violated_oneLabel",
    "OpenGM.C72_violated_order"
   ],
   "note": "Proved for models with two labels per variable and factors of order at most 10. HQPBO accepts other models, for which the claim is false (violations proved). The accumulation type is ignored by HQPBO: the theorems are about minimization."
  },
  {
   "property": "C73",
   "status": "partial",
   "theorems": [
    "OpenGM.C73_construct",
    "OpenGM.C73_infer",
    "OpenGM.C73_violated_labels"
   ],
   "note": "Proved for models in which all variables have the same number of labels; other models are accepted, and infer then evaluates factors out of range (violation proved)."
  },
  {
   "property": "C74",
   "status": "partial",
   "theorems": [
    "OpenGM.C74_construct",
    "OpenGM.C74_entries",
    "OpenGM.C74_write",
    "OpenGM.C74_variable",
    "OpenGM.C74_factor",
    "OpenGM.C74_factor_unary",
    "OpenGM.C74_model_partial",
    "OpenGM.C74_serialize_length",
    "OpenGM.C74_roundtrip",
    "OpenGM.C74_deserialize",
    "OpenGM.C74_arc_min_partial",
    "OpenGM.C74_arc_max_partial",
    "OpenGM.C74_arc_exact_partial",
    "OpenGM.C74_arc_complete_partial",
    "OpenGM.C74_violated_noUnary",
    "OpenGM.C74_violated_twoUnaries",
    "OpenGM.C74_violated_constant",
    "OpenGM.C74_violated_arc"
   ],
   "note": "Proved for all models in which each variable of a factor has exactly one unary factor and no factor is without variables. For the other models the energies change or the code reads out of range, and getArcConsistency can call a labeling consistent that is not optimal: proved as violations. Values are exact (a linearly ordered ring)."
  },
  {
   "property": "C75",
   "status": "partial",
   "theorems": [
    "OpenGM.C75_total",
    "OpenGM.C75_valid",
    "OpenGM.C75_best_partial",
    "OpenGM.C75_metropolis",
    "OpenGM.C75_violated_default",
    "OpenGM.C75_violated_reset",
    "OpenGM.C75_violated_steps",
    "OpenGM.C75_violated_cyclic"
   ],
   "note": "Random numbers are arbitrary arguments. The statements about the best state hold for a start given by the user; without one they are violated, as are the number of samples and CYCLIC (both for every model)."
  },
  {
   "property": "C76",
   "status": "partial",
   "theorems": [
    "OpenGM.C76_total",
    "OpenGM.C76_valid",
    "OpenGM.C76_passes",
    "OpenGM.C76_uniform",
    "OpenGM.C76_balance",
    "OpenGM.C76_best_partial",
    "OpenGM.C76_violated_initial",
    "OpenGM.C76_violated_burnin"
   ],
   "note": "Random numbers are arbitrary arguments; probabilities are elements of an ordered field. Everything is proved except the last sentence: a best state is not recorded for an initial state at construction, and states in the burn-in phase are not considered (both proved by witnesses)."
  },
  {
   "property": "C77",
   "status": "partial",
   "theorems": [
    "OpenGM.FG.C77_isChain",
    "OpenGM.FG.C77_shortestPath_partial",
    "OpenGM.FG.C77_twoHop_partial",
    "OpenGM.FG.C77_twoHop_self",
    "OpenGM.FG.C77_isGrid_partial",
    "OpenGM.FG.C77_violated_allowed",
    "OpenGM.FG.C77_violated_twoHop",
    "OpenGM.FG.C77_violated_grid_cycle",
    "OpenGM.FG.C77_violated_grid_missed",
    "OpenGM.FG.C77_violated_grid_extra"
   ],
   "note": "isChain and shortestPath are proved in full (the list of allowed variables must not have duplicates when it is as long as the number of variables). twoHopConnected is wrong for neighbours, isGrid is wrong for some numberings and in the presence of isolated variables (all proved by witnesses); it always returns a rectangular matrix of variables."
  },
  {
   "property": "C78",
   "status": "partial",
   "theorems": [
    "OpenGM.Learnable.C78_derivative",
    "OpenGM.Learnable.C78_setWeight",
    "OpenGM.Learnable.C78_potts",
    "OpenGM.Learnable.C78_potts_linear",
    "OpenGM.Learnable.C78_potts_unbound",
    "OpenGM.Learnable.C78_potts_roundtrip",
    "OpenGM.Learnable.C78_sum",
    "OpenGM.Learnable.C78_unary_labels",
    "OpenGM.Learnable.C78_unary_arrays",
    "OpenGM.Learnable.C78_unary_roundtrip",
    "OpenGM.Learnable.C78_regularizer",
    "OpenGM.Learnable.C78_constraints_partial",
    "OpenGM.Learnable.C78_loss",
    "OpenGM.Learnable.C78_violated_sum_roundtrip",
    "OpenGM.Learnable.C78_violated_constraint_bounds"
   ],
   "note": "Proved in full but for two violations: LWeightedSumOfFunctions cannot be read (the destination is never written), and the bounds of a weight constraint are never stored."
  },
  {
   "property": "C79",
   "status": "partial",
   "theorems": [
    "OpenGM.SoftConstraint.C79_shape_partial",
    "OpenGM.SoftConstraint.C79_shape_counts",
    "OpenGM.SoftConstraint.C79_violated_size",
    "OpenGM.SoftConstraint.LabelCost.C79_labelCost",
    "OpenGM.SoftConstraint.LabelCost.C79_labelCost_roundtrip_partial",
    "OpenGM.SoftConstraint.LabelCost.C79_violated_roundtrip_size",
    "OpenGM.SoftConstraint.SumConstraint.C79_sumConstraint",
    "OpenGM.SoftConstraint.SumConstraint.C79_sumConstraint_zero",
    "OpenGM.SoftConstraint.SumConstraint.C79_sumConstraint_roundtrip_partial"
   ],
   "note": "Values, dimension, shape and round trips are proved in full; size() is only right below 2^31 entries for functions made from a shape (violation proved by a witness, also across a round trip)."
  },
  {
   "property": "C80",
   "status": "partial",
   "theorems": [
    "OpenGM.LinCon.C80_indicator",
    "OpenGM.LinCon.C80_indicator_order",
    "OpenGM.LinCon.C80_compare_partial",
    "OpenGM.LinCon.C80_violated_order",
    "OpenGM.LinCon.C80_violated_lessEqual",
    "OpenGM.LinCon.C80_constraint",
    "OpenGM.LinCon.C80_function_variables",
    "OpenGM.LinCon.C80_function",
    "OpenGM.LinCon.C80_challenge",
    "OpenGM.LinCon.C80_challengeRelaxed",
    "OpenGM.LinCon.C80_challenge_agree",
    "OpenGM.LinCon.C80_function_roundtrip",
    "OpenGM.LinCon.C80_minmax_partial",
    "OpenGM.LinCon.C80_violated_max",
    "OpenGM.LinCon.stdSort_isStdSort",
    "OpenGM.LinCon.LabelOrder.C80_labelOrder_made",
    "OpenGM.LinCon.LabelOrder.C80_labelOrder",
    "OpenGM.LinCon.LabelOrder.C80_labelOrder_challenge",
    "OpenGM.LinCon.LabelOrder.C80_labelOrder_relaxed",
    "OpenGM.LinCon.LabelOrder.C80_labelOrder_roundtrip",
    "OpenGM.LinCon.NumLabels.C80_numLabels_made",
    "OpenGM.LinCon.NumLabels.C80_numLabels",
    "OpenGM.LinCon.NumLabels.C80_numLabels_challenge",
    "OpenGM.LinCon.NumLabels.C80_numLabels_relaxed",
    "OpenGM.LinCon.NumLabels.C80_numLabels_roundtrip_partial"
   ],
   "note": "Values, challenge, challengeRelaxed and round trips are proved in full. Violated, by witnesses: the comparison of indicator variables is not a strict weak ordering for two or more pairs, so the constructor of LinearConstraintFunction can be undefined; <= is not < or ==; max() need not be a value of the function. size() as in C79."
  },
  {
   "property": "C81",
   "status": "partial",
   "theorems": [
    "OpenGM.Greedy.C81_infer",
    "OpenGM.Greedy.C81_connected",
    "OpenGM.Greedy.C81_last",
    "OpenGM.Greedy.C81_empty_violated",
    "OpenGM.Greedy.C81_components_violated",
    "OpenGM.Greedy.C81_fixed_violated"
   ],
   "note": "infer is proved to be a greedy run along the component of variable 0 for all models with variables. Violated, by witnesses: only the component of variable 0 is visited (other variables keep their labels, variable 0 is visited again); the factors considered include those with variables that are only waiting, so labels from before the run matter, against the documentation; undefined behaviour without variables."
  },
  {
   "property": "C82",
   "status": "partial",
   "theorems": [
    "OpenGM.Spaces.C82_discrete",
    "OpenGM.Spaces.C82_simple_partial",
    "OpenGM.Spaces.C82_violated_simple",
    "OpenGM.Spaces.C82_grid",
    "OpenGM.Spaces.C82_violated_grid",
    "OpenGM.Spaces.C82_vectorView",
    "OpenGM.Spaces.C82_view_partial",
    "OpenGM.Spaces.C82_violated_views",
    "OpenGM.Spaces.C82_isSimple_partial",
    "OpenGM.Spaces.C82_violated_isSimple"
   ],
   "note": "Proved for all histories while the numbers fit the types. Violated, by witnesses or for every object: SimpleDiscreteSpace::assignDense on an empty range and its state after an exception; ViewSpace::addVariable; views made by the default constructor; isSimpleSpace without variables and with label types wider than index types; the size of a grid wraps around. StaticSimpleDiscreteSpace does not compile and is not modelled."
  },
  {
   "property": "C83",
   "status": "partial",
   "theorems": [
    "OpenGM.SingleSite.C83_dynamic_partial",
    "OpenGM.SingleSite.C83_violated_grow",
    "OpenGM.SingleSite.C83_static",
    "OpenGM.SingleSite.C83_serialize_partial",
    "OpenGM.SingleSite.C83_violated_serialize"
   ],
   "note": "Static functions in full. Dynamic functions: proved for all programs that never give a size to an empty object; the first operation that does so is proved to be undefined in every program. serialize never writes the size, so no nonempty dynamic function can be stored and read back; proved for every function."
  },
  {
   "property": "C84",
   "status": "partial",
   "theorems": [
    "OpenGM.FoE.C84_value",
    "OpenGM.FoE.C84_made",
    "OpenGM.FoE.C84_roundtrip_partial",
    "OpenGM.FoE.C84_violated_noExperts",
    "OpenGM.FoE.C84_default_partial",
    "OpenGM.FoE.C84_violated_default"
   ],
   "note": "Values and round trip proved for all functions with experts. Violated: without experts reading back and the constructor from vectors divide by zero; setDefault stores the transposed layout, so its filters are not those in the code."
  },
  {
   "property": "C85",
   "status": "partial",
   "theorems": [
    "OpenGM.Views.C85_view",
    "OpenGM.Views.C85_violated_default",
    "OpenGM.Views.C85_convert_adder",
    "OpenGM.Views.C85_convert_multiplier_partial",
    "OpenGM.Views.C85_violated_temperature",
    "OpenGM.Views.C85_convert_shape",
    "OpenGM.Views.C85_accumulated",
    "OpenGM.Views.C85_accumulated_model",
    "OpenGM.Views.C85_scaled",
    "OpenGM.Views.C85_modelView"
   ],
   "note": "Proved for all models. Violated: the inverse temperature is ignored for Multiplier, for every model; default constructed views are undefined on use."
  },
  {
   "property": "C86",
   "status": "partial",
   "theorems": [
    "OpenGM.ExplicitModel.C86_storage_partial",
    "OpenGM.ExplicitModel.C86_storage_filled_partial",
    "OpenGM.ExplicitModel.C86_convert_partial",
    "OpenGM.ExplicitModel.C86_violated_types",
    "OpenGM.ExplicitModel.C86_destroy",
    "OpenGM.ExplicitModel.C86_violated_copy"
   ],
   "note": "For models whose functions have arguments. Violated: the conversion of models with several functions of one type and a function of a later type (the order of the identifiers is no strict weak order, so std::map is undefined); a copied storage is deleted twice."
  },
  {
   "property": "C87",
   "status": "partial",
   "theorems": [
    "OpenGM.PartitionMove.C87_rejects",
    "OpenGM.PartitionMove.C87_infer_partial",
    "OpenGM.PartitionMove.C87_local_optimum",
    "OpenGM.PartitionMove.C87_arg_other",
    "OpenGM.PartitionMove.C87_violated_parallel"
   ],
   "note": "Values are rational numbers (no rounding). Proved for models without two factors on the same two variables; local optimality proved for integral energies (the code stops at improvements below thresholds of 1e-8 and 1e-10). Violated for models with such factors: the weight of all but the last one is lost and infer can increase the energy."
  },
  {
   "property": "C88",
   "status": "partial",
   "theorems": [
    "OpenGM.Sat.C88_decides_partial",
    "OpenGM.Sat.C88_rejects",
    "OpenGM.Sat.C88_violated_visitor"
   ],
   "note": "Boost's strong_components is any function that meets the specification of strongly connected components. Proved if the visitor of the first call does not read the value when inference begins. Violated for the verbose and the timing visitor: they call value() in begin(), which reads an empty vector."
  },
  {
   "property": "C89",
   "status": "proved",
   "theorems": [
    "OpenGM.ModelTrees.C89_trees",
    "OpenGM.ModelTrees.C89_forest",
    "OpenGM.ModelTrees.C89_violated_nodes"
   ],
   "note": "nodes appends to the vectors it is given; C89_violated_nodes shows that a second call with the same vector lists every variable twice."
  },
  {
   "property": "C90",
   "status": "proved",
   "theorems": [
    "OpenGM.Submodel.C90_submodel",
    "OpenGM.Submodel.C90_offset",
    "OpenGM.Submodel.C90_optimal",
    "OpenGM.Submodel.C90_infer",
    "OpenGM.Submodel.C90_queries",
    "OpenGM.Submodel.C90_rejected"
   ],
   "note": "Selections are increasing lists of variables, as the caller in the library (LOC) sorts them. Not modelled: inferSubmodelInplace, mergeFactors, mergeFactorsAndInferDp."
  },
  {
   "property": "C91",
   "status": "partial",
   "theorems": [
    "OpenGM.CanonicalView.C91_factors_partial",
    "OpenGM.CanonicalView.C91_energy_partial",
    "OpenGM.CanonicalView.C91_unique_partial",
    "OpenGM.CanonicalView.C91_violated_multiplier",
    "OpenGM.CanonicalView.C91_violated_types"
   ],
   "note": "Proved for operations with neutral element 0 and models in which a function type with several functions is not followed by another used type; for the Multiplier the value of labelings is not kept (C91_violated_multiplier) and for other mixtures of types the behaviour is undefined (C91_violated_types). CloneViews and CloneDeep are not modelled."
  },
  {
   "property": "C92",
   "status": "partial",
   "theorems": [
    "OpenGM.PrimalBound.C92_construct",
    "OpenGM.PrimalBound.C92_values_partial",
    "OpenGM.PrimalBound.C92_first_solution_partial",
    "OpenGM.PrimalBound.C92_violated_stale",
    "OpenGM.PrimalBound.C92_violated_other",
    "OpenGM.PrimalBound.C92_violated_dangling",
    "OpenGM.PrimalBound.C92_violated_throw",
    "OpenGM.PrimalBound.C92_violated_check"
   ],
   "note": "Values are proved for all histories under the assumption that the memory of a destroyed temporary can be read (by the rules of the language it cannot: C92_violated_dangling). getFactorVariable returns solutions of other factors or of old weights (C92_violated_other, C92_violated_stale); getTotalValue returns a partial sum after it has thrown (C92_violated_throw); the check of the order does not throw (C92_violated_check). The transportation solver is a parameter."
  },
  {
   "property": "C93",
   "status": "partial",
   "theorems": [
    "OpenGM.Iterators.C93_accessor_moves",
    "OpenGM.Iterators.C93_accessor_saturates",
    "OpenGM.Iterators.C93_accessor_postfix",
    "OpenGM.Iterators.C93_accessor_compare_partial",
    "OpenGM.Iterators.C93_collect",
    "OpenGM.Iterators.C93_function_shape",
    "OpenGM.Iterators.C93_factor",
    "OpenGM.Iterators.C93_subsequence_moves",
    "OpenGM.Iterators.C93_subsequence_postfix",
    "OpenGM.Iterators.C93_subsequence_compare",
    "OpenGM.Iterators.C93_violated_difference",
    "OpenGM.Iterators.C93_violated_variables",
    "OpenGM.Iterators.C93_violated_const"
   ],
   "note": "Proved for SubsequenceIterator completely, and for AccessorIterator and the accessors of the library up to three violations: differences of an accessor iterator and a later one are huge positive numbers, dereferencing a const accessor iterator refers to an object that is gone, and the iterator over the variables of a factor gives numbers of labels. operator-> of AccessorIterator (does not compile with the accessors of the library) is not modelled."
  },
  {
   "property": "C94",
   "status": "partial",
   "theorems": [
    "OpenGM.DMC.C94_optimal_partial",
    "OpenGM.DMC.C94_violated_pair",
    "OpenGM.DMC.C94_violated_value",
    "OpenGM.DMC.C94_violated_constant",
    "OpenGM.DMC.C94_violated_labels",
    "OpenGM.DMC.C94_violated_other"
   ],
   "note": "Optimality is proved for all thresholds that are not positive, if for every factor whose weight is above the threshold the total weight of the factors with the same variables is not negative. Without that the pair is joined unseen (C94_violated_pair). value() is always 0 (C94_violated_value). Problems with constant terms are rejected with an exception (C94_violated_constant), those with too few labels or with factors that are not Potts functions are not (C94_violated_labels, C94_violated_other). Missing: positive thresholds, floating point numbers, the visitors; the solvers are functions."
  },
  {
   "property": "C95",
   "status": "partial",
   "theorems": [
    "OpenGM.MergeFactors.C95_merge_partial",
    "OpenGM.MergeFactors.C95_rejects",
    "OpenGM.MergeFactors.C95_violated_constant",
    "OpenGM.MergeFactors.C95_violated_multiplier",
    "OpenGM.MergeFactors.C95_violated_key"
   ],
   "note": "Proved for addition as operation, up to the constant factors, which are dropped (C95_violated_constant), and if the square of the number of variables fits into the index type and into 64 bits (C95_violated_key otherwise). Values are added also if the operation is multiplication (C95_violated_multiplier). Missing: floating point addition; the solver that is called afterwards (dynamic programming is C29)."
  },
  {
   "property": "C96",
   "status": "proved",
   "theorems": [
    "OpenGM.StartingPoint.C96_threshold",
    "OpenGM.StartingPoint.C96_rejects"
   ],
   "note": "For every linearly ordered type of values and one value per factor (fewer values are undefined behaviour). Values that are not numbers (NaN) are not in a linear order."
  },
  {
   "property": "C97",
   "status": "partial",
   "theorems": [
    "OpenGM.PermutableFusion.C97_intersect",
    "OpenGM.PermutableFusion.C97_fuse_partial",
    "OpenGM.PermutableFusion.C97_exact_partial",
    "OpenGM.PermutableFusion.C97_rejects",
    "OpenGM.PermutableFusion.C97_violated_single",
    "OpenGM.PermutableFusion.C97_violated_unary"
   ],
   "note": "intersect is proved in full. fuse is proved for models whose factors all have two variables and when the intersection has more than one part; with an exact solver the result is the best of all partitions that respect the parts (C97_exact_partial); with one part it returns without writing res and valRes (C97_violated_single), and factors of one variable, which intersect accepts, make it throw (C97_violated_unary). Missing: fuseClassic, the hierarchical clustering, the overflow of keys."
  }
 ]
}