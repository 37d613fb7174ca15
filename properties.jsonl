{"id": "C01", "title": "evaluate() combines every factor exactly once", "statement": "For a model built by any sequence of successful addVariable/addFunction/addFactor calls and any labeling with one in-range label per variable, evaluate(labels) performs no out-of-bounds access and returns the OPERATOR-combination, starting from the neutral element, of each factor's function applied to the labels of exactly that factor's variables, in the factor's variable order. If OPERATOR is commutative and associative the value does not depend on the order in which factors were added.", "quantifier": "all value types that are commutative monoids under OPERATOR, all models (any number of variables, labels, functions, factors of any order incl. 0), all in-range labelings", "why_tests_cant": "unbounded space of models and labelings; a test fixes one model", "anchors": ["include/opengm/graphicalmodel/graphicalmodel.hxx: GraphicalModel::evaluate, addFactor, factorOrder"]}
{"id": "C02", "title": "variable-factor adjacency is always exact", "statement": "After any history of addVariable/addFunction/addFactor calls that return normally, factorsOfVariable(v) is strictly increasing and contains exactly the factors whose variable list contains v; numberOfFactors(v) and numberOfVariables(f) count them.", "quantifier": "all histories of model-building calls", "why_tests_cant": "must hold for every construction history", "anchors": ["include/opengm/graphicalmodel/graphicalmodel.hxx: addFactor, addVariable, factorOfVariable, numberOfFactors"]}
{"id": "C03", "title": "addFactorNonFinalized + finalize equals addFactor", "statement": "Adding any list of (function, variables) pairs with addFactorNonFinalized followed by one finalize() yields a model with the same factors, the same adjacency and the same value of evaluate as adding them one by one with addFactor.", "quantifier": "all models and all lists of factors", "why_tests_cant": "the two construction paths must agree for every sequence", "anchors": ["include/opengm/graphicalmodel/graphicalmodel.hxx: addFactorNonFinalized, finalize, addFactor"]}
{"id": "C04", "title": "a rejected addFactor leaves the model unchanged", "statement": "If addFactor throws because the variable indices are unsorted, duplicated or out of range, then the model observed afterwards (number of factors, adjacency, evaluate) is the model before the call.", "quantifier": "all models and all invalid variable sequences", "why_tests_cant": "the exceptional path must be safe for every invalid input and prior state", "anchors": ["include/opengm/graphicalmodel/graphicalmodel.hxx: addFactor (lines 661-696)"]}
{"id": "C05", "title": "function identifiers are stable and addSharedFunction deduplicates", "statement": "An identifier returned by addFunction/addSharedFunction denotes, after any later history of model-building calls, the same function that was passed in (up to function equality for the shared variant); addSharedFunction returns an existing identifier exactly if an equal function of that type is already stored, and never stores a second copy.", "quantifier": "all histories of addFunction/addSharedFunction/addFactor/addVariable calls", "why_tests_cant": "quantifies over all later histories", "anchors": ["include/opengm/graphicalmodel/graphicalmodel.hxx: addFunction, addSharedFunction, getFunction"]}
{"id": "C06", "title": "function identifiers are totally ordered", "statement": "The comparison operators of FunctionIdentifier form a strict total order consistent with ==, so identifiers can be used as keys of sorted containers.", "quantifier": "all pairs/triples of identifiers", "why_tests_cant": "order axioms range over all triples", "anchors": ["include/opengm/graphicalmodel/graphicalmodel.hxx: FunctionIdentification::operator<, >, <=, >=, =="]}
{"id": "C07", "title": "copied models are equal and independent", "statement": "After copy construction or assignment the copy evaluates every labeling to the same value as the source, and no later change of the source (adding variables, functions, factors) changes what the copy evaluates to, nor vice versa.", "quantifier": "all models, all labelings, all later histories on either object", "why_tests_cant": "aliasing bugs only show for particular later histories", "anchors": ["include/opengm/graphicalmodel/graphicalmodel.hxx: copy constructor, operator="]}
{"id": "C08", "title": "factor graph connection queries are exact", "statement": "variableFactorConnection(v,f) is true iff v is one of the variables of f; variableVariableConnection(v,w) is true iff v≠w and some factor contains both; factorFactorConnection(f,g) is true iff f≠g and they share a variable.", "quantifier": "all models and all pairs of in-range indices", "why_tests_cant": "all graphs", "anchors": ["include/opengm/graphicalmodel/graphviews/factorgraph.hxx: variableFactorConnection, variableVariableConnection, factorFactorConnection"]}
{"id": "C09", "title": "variable adjacency list/matrix equal the co-occurrence graph", "statement": "variableAdjacencyList gives for each v the strictly increasing list of exactly the variables w≠v that share a factor with v; variableAdjacencyMatrix[v][w] is true iff they share a factor and v≠w. Both are symmetric.", "quantifier": "all models", "why_tests_cant": "all graphs", "anchors": ["include/opengm/graphicalmodel/graphviews/factorgraph.hxx: variableAdjacencyList, variableAdjacencyMatrix"]}
{"id": "C10", "title": "factor adjacency list equals the shared-variable graph", "statement": "factorAdjacencyList gives, for every factor f, exactly the factors g that share a variable with f.", "quantifier": "all models", "why_tests_cant": "all graphs", "anchors": ["include/opengm/graphicalmodel/graphviews/factorgraph.hxx: templatedFactorAdjacencyList, factorAdjacencyList"]}
{"id": "C11", "title": "isConnected decides connectivity", "statement": "For a model with at least one variable and no order-0 factor, isConnected() returns true iff every variable can be reached from every other through a chain of factors sharing variables.", "quantifier": "all models", "why_tests_cant": "all graphs of any size", "anchors": ["include/opengm/graphicalmodel/graphviews/factorgraph.hxx: isConnected"]}
{"id": "C12", "title": "isAcyclic decides absence of cycles in the factor graph", "statement": "isAcyclic() returns true iff the bipartite variable-factor graph contains no cycle.", "quantifier": "all models", "why_tests_cant": "all graphs of any size", "anchors": ["include/opengm/graphicalmodel/graphviews/factorgraph.hxx: isAcyclic"]}
{"id": "C13", "title": "maxFactorOrder/factorOrder report the largest factor", "statement": "factorOrder() equals the maximum number of variables over all factors (0 if there are none) after any construction history; maxFactorOrder(k) is true iff every factor has at most k variables.", "quantifier": "all models, all k", "why_tests_cant": "all histories", "anchors": ["include/opengm/graphicalmodel/graphicalmodel.hxx: factorOrder, addFactor; include/opengm/graphicalmodel/graphviews/factorgraph.hxx: maxFactorOrder"]}
{"id": "C14", "title": "Movemaker: value() always equals evaluate(state)", "statement": "After any history of initialize/move/moveOptimally/reset calls on a model with additive OPERATOR (value type an abelian group) or multiplicative OPERATOR, Movemaker::value() equals evaluate of the labeling reported by state(), and each call returns that value.", "quantifier": "all models, all histories of calls, all variable subsets and labels", "why_tests_cant": "incremental bookkeeping must be right after every history", "anchors": ["include/opengm/inference/movemaker.hxx: Movemaker::move, moveOptimally, initialize, reset, value, state"]}
{"id": "C15", "title": "Movemaker::valueAfterMove predicts without side effects", "statement": "valueAfterMove(vars, labels) returns evaluate of the current labeling with the given variables relabelled, and leaves state() and value() (and all later answers) unchanged.", "quantifier": "all models, states, sets of distinct variables, labels", "why_tests_cant": "exponentially many moves", "anchors": ["include/opengm/inference/movemaker.hxx: valueAfterMove"]}
{"id": "C16", "title": "Movemaker::moveOptimally finds the best joint relabelling", "statement": "After moveOptimally(vars) the value is the best over all joint relabellings of vars with the other variables held fixed, only vars may have changed, and the labeling is unchanged if no strict improvement exists.", "quantifier": "all models, states, nonempty sets of distinct variables", "why_tests_cant": "optimality over exponentially many moves", "anchors": ["include/opengm/inference/movemaker.hxx: moveOptimally"]}
{"id": "C17", "title": "moveOptimallyWithAllLabelsChanging restores non-improving moves", "statement": "moveOptimallyWithAllLabelsChanging(vars) leaves value() equal to evaluate(state()) and later valueAfterMove calls correct, whatever the model and variables.", "quantifier": "all models, states, variable subsets", "why_tests_cant": "hidden buffer corruption appears only in later calls", "anchors": ["include/opengm/inference/movemaker.hxx: moveOptimallyWithAllLabelsChanging (469-601)"]}
{"id": "C18", "title": "ICM terminates in a local optimum and never gets worse", "statement": "ICM::infer (single-variable moves, no visitor abort) terminates, its final value is never worse than the start value, equals evaluate(arg), and no single-variable relabelling of the result is strictly better.", "quantifier": "all models, all start labelings", "why_tests_cant": "termination and optimality over all models", "anchors": ["include/opengm/inference/icm.hxx: ICM::infer, arg, value"]}
{"id": "C19", "title": "ICM FACTOR moves reach factor-wise local optimality", "statement": "With FACTOR moves the result additionally cannot be improved by jointly relabelling the variables of any one factor of order >1.", "quantifier": "all models, all start labelings", "why_tests_cant": "all models", "anchors": ["include/opengm/inference/icm.hxx: ICM::infer (221-261)"]}
{"id": "C20", "title": "Bruteforce returns a global optimum", "statement": "If at least one labeling has a value strictly better than the accumulator's neutral element, then after Bruteforce::infer arg() is an in-range labeling whose value is at least as good as that of every labeling, value() equals that value, and infer enumerates every labeling exactly once.", "quantifier": "all models whose variables have at least one label, all linear orders of values", "why_tests_cant": "optimality over all labelings of all models", "anchors": ["include/opengm/inference/bruteforce.hxx: Bruteforce::infer, arg, value"]}
{"id": "C21", "title": "ShapeWalker enumerates every coordinate exactly once", "statement": "Starting at zero and incrementing, ShapeWalker's first (product of the extents) coordinate tuples are exactly all tuples below the shape, each once, in first-coordinate-fastest order; ShapeWalkerSwitchedOrder does the same in last-coordinate-fastest order.", "quantifier": "all shapes of positive extents, any dimension", "why_tests_cant": "all shapes", "anchors": ["include/opengm/utilities/indexing.hxx: ShapeWalker, ShapeWalkerSwitchedOrder"]}
{"id": "C22", "title": "SubShapeWalker enumerates the slice", "statement": "With a sorted list of fixed coordinates, SubShapeWalker visits, in subSize() steps, each tuple below the shape that agrees with the fixed values exactly once and no other.", "quantifier": "all shapes, all sorted sets of fixed positions and values", "why_tests_cant": "all shapes and slices", "anchors": ["include/opengm/utilities/indexing.hxx: SubShapeWalker"]}
{"id": "C23", "title": "Double/TripleShapeWalker stay synchronised", "statement": "While walking the union of two sorted variable lists, the coordinate tuples reported for A and B always are the restrictions of the current union coordinate to the variables of A and B.", "quantifier": "all sorted duplicate-free variable lists A, B, all shapes, any number of steps", "why_tests_cant": "all index sets and steps", "anchors": ["include/opengm/utilities/indexing.hxx: TripleShapeWalker, DoubleShapeWalker"]}
{"id": "C24", "title": "factor arithmetic is pointwise", "statement": "Combining two factors with a binary operation yields a factor on the sorted union of their variables (without duplicates, with the right label counts) whose value at every joint labeling is the operation applied to the two factors' values at the restricted labelings; the in-place form gives the same result.", "quantifier": "all factors, all binary operations, all labelings", "why_tests_cant": "all shapes and scopes", "anchors": ["include/opengm/functions/operations/operator.hxx: computeViandShape, BinaryOperationImpl, BinaryOperationInplaceImpl"]}
{"id": "C25", "title": "accumulate over some variables is the marginal", "statement": "Accumulating a factor over a set of its variables yields a factor on the remaining variables whose value at each labeling is the accumulation (min/max/sum/product...) over all labels of the removed variables; accumulating over all variables gives the accumulation of all entries.", "quantifier": "all factors, all variable subsets, all accumulators", "why_tests_cant": "all shapes and subsets", "anchors": ["include/opengm/functions/operations/accumulator.hxx: AccumulateSomeImpl, AccumulateAllImpl"]}
{"id": "C26", "title": "fixVariables restricts a factor", "statement": "IndependentFactor::fixVariables yields the factor on the remaining variables whose values are those of the original factor with the fixed labels plugged in.", "quantifier": "all factors, all sorted variable subsets and labels", "why_tests_cant": "all shapes and subsets", "anchors": ["include/opengm/graphicalmodel/graphicalmodel_factor.hxx: IndependentFactor::fixVariables"]}
{"id": "C27", "title": "ViewFixVariablesFunction evaluates the restricted factor", "statement": "A ViewFixVariablesFunction of a factor with sorted fixed positions evaluates at free labels x to the factor's value at the labeling that puts the fixed labels at the fixed positions and x, in order, at the others; its shape is the factor's shape without the fixed positions and its size is their product.", "quantifier": "all factors, all sorted fixed position lists, all labels", "why_tests_cant": "all shapes and subsets", "anchors": ["include/opengm/functions/view_fix_variables_function.hxx"]}
{"id": "C28", "title": "GraphicalModelManipulator preserves energies", "statement": "After fixing any set of variables and building the modified model, evaluating the modified model at a labeling of the free variables equals evaluating the original model at modifiedState2OriginalState of it; with buildModifiedSubModels the combination over the submodels equals it too.", "quantifier": "all models, sets of fixed variables and labels, labelings of free variables", "why_tests_cant": "all models and subsets", "anchors": ["include/opengm/graphicalmodel/graphicalmodel_manipulator.hxx"]}
{"id": "C29", "title": "dynamic programming is exact on forests", "statement": "For an acyclic model of order at most two, DynamicProgramming::infer followed by arg yields a labeling whose value is optimal over all labelings.", "quantifier": "all acyclic pairwise models", "why_tests_cant": "all forests of any size", "anchors": ["include/opengm/inference/dynamicprogramming.hxx"]}
{"id": "C30", "title": "RandomAccessSet behaves as a mathematical set", "statement": "After any history of insert/erase/assign, the elements are strictly increasing, find/contains answer membership of the abstract set, insert reports whether the key was new and size is the number of distinct keys.", "quantifier": "all key types with a linear order, all histories", "why_tests_cant": "all histories", "anchors": ["include/opengm/datastructures/randomaccessset.hxx"]}
{"id": "C31", "title": "Partition maintains the equivalence generated by merges", "statement": "After any history of merge/insert/find calls, find(a)=find(b) iff a and b are related by the equivalence relation generated by the merges; numberOfSets() is the number of classes; elementLabeling gives equal labels exactly to equivalent elements, numbered consecutively; find terminates.", "quantifier": "all sizes, all histories", "why_tests_cant": "path compression and ranks depend on the whole history", "anchors": ["include/opengm/datastructures/partition.hxx"]}
{"id": "C32", "title": "ChangeablePriorityQueue refines a finite map with minimum", "statement": "After any valid history of push/pop/changePriority/deleteItem, contains/priority answer as a finite map and top() is an item of minimal (w.r.t. the comparator) priority.", "quantifier": "all capacities, histories, strict weak orders", "why_tests_cant": "all histories", "anchors": ["include/opengm/utilities/queues.hxx: ChangeablePriorityQueue"]}
{"id": "C33", "title": "FastSequence/BufferVector are memory safe and act as sequences", "statement": "Any history of construct, copy, assign, push_back, resize and clear on FastSequence and BufferVector objects accesses only memory it owns, frees each heap block once, and the contents equal those of an abstract list.", "quantifier": "all finite histories over any number of objects, all lengths (below and above the stack capacity)", "why_tests_cant": "whether a block is on the stack or the heap, and how much was allocated, depends on the whole history of copies and resizes; a test runs a few histories and may not crash on a bad one", "anchors": ["include/opengm/datastructures/fast_sequence.hxx", "include/opengm/datastructures/buffer_vector.hxx"]}
{"id": "C34", "title": "array coordinates, indices and offsets are in bijection", "statement": "For every view that can be made from an array (sub-view, bound view, permute, transpose, shift, squeeze, reshape, in any sequence), coordinatesToIndex maps the tuples below the shape bijectively onto 0..size-1 in the coordinate order of the view, indexToCoordinates is its inverse (dimension at least 1), index and coordinates lead to the same element, every element lies inside the array's memory, and distinct coordinates are distinct elements.", "quantifier": "all shapes, both orders, all sequences of view operations", "why_tests_cant": "stride arithmetic depends on every extent and on the history of view operations; a test fixes a few shapes", "anchors": ["include/opengm/datastructures/marray/marray.hxx: coordinatesToIndex, indexToCoordinates, indexToOffset"]}
{"id": "C35", "title": "permute/transpose/bind views show the right elements", "statement": "After permute(p), transpose(j,k), transpose(), shift(n), boundView(j,x), squeeze, a sub-view or reshape, reading at coordinate c gives the element of the view before at the correspondingly rearranged coordinate: permuted by p, two entries exchanged, reversed, rotated by n, with x inserted at j, without the singleton entries, with the start added, with the same scalar index.", "quantifier": "all views reachable by any sequence of view operations, all permutations, coordinates", "why_tests_cant": "all shapes, permutations, rotations and their compositions; a test fixes one view", "anchors": ["include/opengm/datastructures/marray/marray.hxx: permute, transpose, shift, boundView, squeeze"]}
{"id": "C36", "title": "array resize preserves the overlap", "statement": "Marray::resize keeps the value at every coordinate valid in both the old and new shape and fills the rest with the given value.", "quantifier": "all shapes", "why_tests_cant": "all shapes", "anchors": ["include/opengm/datastructures/marray/marray.hxx: resizeHelper"]}
{"id": "C37", "title": "closed forms of parametric functions agree with enumeration", "statement": "min(), max(), minMax(), sum(), product() and accumulate() of every function, whether in closed form (Potts, constant) or by the fallback implementation, equal the minimum, maximum, sum and product over all entries of the table the function denotes.", "quantifier": "all parameters, label counts and orders of the function types, and all user-defined functions that inherit the fallback implementations", "why_tests_cant": "the closed forms are arithmetic in the parameters and label counts; the fallback loops depend on every extent; a test compares them on a few shapes", "anchors": ["include/opengm/functions/potts.hxx", "include/opengm/functions/constant.hxx"]}
{"id": "C38", "title": "function serialization round-trips", "statement": "For each function type, serialize() writes exactly indexSequenceSize() and valueSequenceSize() entries, and deserialize() of these sequences, with anything behind them in the stream, gives a function with the same shape and values; cloneAsExplicitFunction() gives an explicit function with the same shape and values.", "quantifier": "all parameters, shapes and orders (including 0), all values, all trailing data", "why_tests_cant": "reader and writer must agree on every length: a saved file is a concatenation of such sequences, so a wrong size corrupts whatever follows; tests save a few small functions", "anchors": ["include/opengm/functions/*.hxx: FunctionSerialization"]}
{"id": "C39", "title": "model save/load round-trips", "statement": "Loading a saved model into an empty model with a type list containing the stored function types yields a model with the same variables, label counts, factors and adjacency, whose evaluate() agrees at every labeling; loading into a type list without a stored type throws.", "quantifier": "all models (any history of construction), all pairs of function type lists, all labelings", "why_tests_cant": "ids of function types are translated between type lists, and sequences of all functions are concatenated; a test fixes one model and mostly equal type lists", "anchors": ["include/opengm/graphicalmodel/graphicalmodel_hdf5.hxx"]}
{"id": "C40", "title": "structure predicates on functions are correct", "statement": "isPotts(), isGeneralizedPotts(), isSubmodular(), isAbsoluteDifference(), isSquaredDifference(), their truncated versions and operator== of a function are true iff its table has the structure of that name (equal tables, for ==).", "quantifier": "all functions of all shapes and values, and every tolerance for floating point comparisons", "why_tests_cant": "each predicate is a universally quantified statement about all entries; deciding it reads a few reference entries and compares the rest, so a wrong answer appears for particular shapes and values only", "anchors": ["include/opengm/functions/function_properties_base.hxx"]}
{"id": "C41", "title": "GraphCut construction represents the energy", "statement": "For binary models with submodular factors of order at most 2, the capacity of the s-t cut that belongs to a labeling equals the energy of that labeling up to a constant independent of the labeling, and all capacities are nonnegative, so that a minimum cut gives an optimal labeling; the same holds for factors of order 3.", "quantifier": "all binary models of that order and all labelings", "why_tests_cant": "the claim is that an optimum is found, which enumerating labelings can check for tiny models only; capacities accumulate over all factors", "anchors": ["include/opengm/inference/graphcut.hxx: addFactor, addEdgeCapacity, arg"]}
{"id": "C42", "title": "alpha-expansion never increases the energy", "statement": "Each expansion step of AlphaExpansion with an exact binary solver leads to a labeling in the label space whose energy is not larger than before, and it is optimal among all labelings reachable by changing variables to alpha.", "quantifier": "all models with factors of order at most 2 that meet the metric condition, all labelings and all alpha", "why_tests_cant": "the auxiliary graph depends on the current labeling in every step; a test sees the final energy only", "anchors": ["include/opengm/inference/alphaexpansion.hxx: infer"]}
{"id": "C43", "title": "operations obey their algebra", "statement": "For Adder, Multiplier, Minimizer, Maximizer, And, Or and Integrator the neutral element is neutral for op, op is associative and commutative, the two- and three-argument forms of op agree, and iop undoes op for Adder and Multiplier.", "quantifier": "all values of an abstract value type", "why_tests_cant": "inference algorithms rely on these laws for every value: reordering factors must not change the result", "anchors": ["include/opengm/operations/*.hxx"]}
{"id": "C44", "title": "Accumulation returns the best value with its state", "statement": "Feeding any sequence of (value, state) pairs to Accumulation with Minimizer or Maximizer yields the best value and, if some value beats the neutral element, the first state of the sequence that attains it; other accumulations yield the fold.", "quantifier": "all finite sequences of values and states", "why_tests_cant": "ties and values equal to the neutral element decide which state is kept; these appear for particular sequences only", "anchors": ["include/opengm/utilities/accumulation.hxx"]}
{"id": "C45", "title": "sorting helpers are correct", "statement": "isSorted is true iff the sequence is non-decreasing; findInSortedSequence returns membership and position; doubleSort sorts the first sequence and applies the same permutation to the second.", "quantifier": "all finite sequences, with and without repetitions", "why_tests_cant": "sortedness and permutation are statements about all positions of sequences of any length", "anchors": ["include/opengm/utilities/sorting.hxx"]}
{"id": "C46", "title": "Partitions enumerates every set partition once", "statement": "After any sequence of queries, a Partitions object lists, for n elements, exactly BellNumber(n) codes: every set partition of the n elements occurs once and nothing else does; label2Number gives two labelings the same code iff they induce the same partition; label2Index gives the position of that code in the list, and getPartition returns the codes in increasing order.", "quantifier": "every number of elements, every labeling, every sequence of earlier queries (the tables grow lazily)", "why_tests_cant": "The tables grow recursively and Bell numbers explode; a test can compare a few small tables, not the claim that no partition is missed or listed twice for any n and any order of queries.", "anchors": ["include/opengm/utilities/partitions.hxx"]}
{"id": "C47", "title": "unsignedIntegerPow computes powers modulo the word size", "statement": "unsignedIntegerPow(b, e) equals b^e modulo 2^w in a type of w bits.", "quantifier": "all b, e and word sizes", "why_tests_cant": "square-and-multiply takes a path given by the bits of e, and products wrap around", "anchors": ["include/opengm/utilities/unsigned_integer_pow.hxx"]}
{"id": "C48", "title": "Tribool comparisons are consistent", "statement": "For all Tribools and bools a, b: a == b compares the truth values, a != b is the negation of a == b, and conversions, negation and conjunction follow three-valued logic.", "quantifier": "all values and all combinations of argument types", "why_tests_cant": "every overload is a separate function; the laws relate different overloads, and the tests use a few of them", "anchors": ["include/opengm/utilities/tribool.hxx"]}
{"id": "C49", "title": "LazyFlipper: bookkeeping, monotonicity and local optimality", "statement": "Tagging reports exactly the indices tagged since the last untag. LazyFlipper's infer ends for every visitor, value() is evaluate(arg()), the labeling is unchanged or strictly better, and if the visitor does not stop it, no labeling that differs on at most maxSubgraphSize() variables is better.", "quantifier": "all models, start labelings, subgraph sizes, visitors and sequences of calls", "why_tests_cant": "the search over connected subgraphs prunes and revisits paths; a lost subset shows only on models where exactly that subset improves", "anchors": ["include/opengm/inference/lazyflipper.hxx"]}
{"id": "C50", "title": "decomposition objects stay consistent", "statement": "A GraphicalModelDecomposition changed only by its constructor, addSubModel, addSubVariable, both forms of addSubFactor (called with copies of the factor's variables), complete() and reorder() never reads out of range; submodels, submodel variables and submodel factors get consecutive numbers, every sub-factor depends on copies, in its own submodel, of its factor's variables; complete() gives every copy of a variable with several copies a unary sub-factor and changes nothing else; reorder() renumbers the copies bijectively in the order of the variables and consistently in the sub-factors; isValid(gm) is true exactly when every variable and every factor has a copy and the sub-factors depend on copies of the right variables.", "quantifier": "all models, all histories of these calls", "why_tests_cant": "the histories and index patterns are unbounded", "anchors": ["include/opengm/graphicalmodel/decomposition/graphicalmodeldecomposition.hxx"]}
{"id": "C51", "title": "order-n factors of a variable are counted and listed exactly", "statement": "numberOfNthOrderFactorsOfVariable(v,n) returns the number of factors of variable v with exactly n variables; the overload with an output vector returns exactly these factors; secondVariableOfSecondOrderFactor returns the other variable of a two-variable factor.", "quantifier": "all models, all variables v in range, all n", "why_tests_cant": "the counting and the writing loop must agree for every adjacency structure; a test fixes one model", "anchors": ["include/opengm/graphicalmodel/graphviews/factorgraph.hxx: numberOfNthOrderFactorsOfVariable, secondVariableOfSecondOrderFactor"]}
{"id": "C53", "title": "iterating over a view visits the elements in scalar order", "statement": "For every view, the iterator begin() advanced k times with ++, k < size, refers to the element view(k), and size increments reach end().", "quantifier": "all views reachable by any sequence of view operations, all k", "why_tests_cant": "the carry logic of the iterator depends on all extents, strides and the coordinate order", "anchors": ["include/opengm/datastructures/marray/marray.hxx: Iterator::operator++, Iterator::Iterator"]}
{"id": "C54", "title": "decrementing an iterator undoes incrementing", "statement": "For every view, decrementing an iterator that stands on element k+1 or at the end leads to the element with the scalar index one smaller; in particular rbegin() refers to the last element.", "quantifier": "all views, all positions", "why_tests_cant": "the borrow logic depends on all extents, strides and the coordinate order", "anchors": ["include/opengm/datastructures/marray/marray.hxx: Iterator::operator--, rbegin"]}
{"id": "C55", "title": "copying a view into an array keeps shape and elements", "statement": "An array constructed from a view has the shape and coordinate order of the view, and the same value at every coordinate.", "quantifier": "all views reachable by any sequence of view operations", "why_tests_cant": "strided and simple views take different code paths depending on the history of view operations", "anchors": ["include/opengm/datastructures/marray/marray.hxx: Marray::Marray(const View&)"]}
{"id": "C56", "title": "independent factors copy factors of models and constants", "statement": "An IndependentFactor constructed from, or assigned, a factor of a graphical model has the same variables and the same value at every labeling; one constructed on variables of a model with a value has that value at every labeling.", "quantifier": "all factors of all function types and orders (including order 0), all labelings, all values", "why_tests_cant": "the copy walks over all labelings of arbitrarily many variables, by coordinate in one version and by scalar index in the other", "anchors": ["include/opengm/graphicalmodel/graphicalmodel_factor.hxx: IndependentFactor::IndependentFactor, operator=, assign"]}
{"id": "C57", "title": "factor expressions mean what the formulas mean", "statement": "After any sequence of arithmetic operations, accumulations and fixings (in place or not) on IndependentFactors, the value at every labeling is that of the corresponding expression over functions of labelings, and the variables stay sorted with matching label counts; subtractOffset subtracts the minimum.", "quantifier": "all finite sequences of operations, all operands, all labelings", "why_tests_cant": "a test covers single operations on given shapes; programs (message passing, elimination) chain them", "anchors": ["include/opengm/graphicalmodel/graphicalmodel_factor.hxx: IndependentFactor", "include/opengm/functions/operations/operator.hxx", "include/opengm/functions/operations/accumulator.hxx"]}
{"id": "C52", "title": "assignment between models of different function type lists", "statement": "a = b for models with different function type lists succeeds if every function b holds is of a class in a's type list, and then a and b evaluate every labeling to the same value (and stay independent); otherwise it throws, changes no other object and leaves a unchanged.", "quantifier": "all type lists without repetition, all histories of both models, all labelings", "why_tests_cant": "function type indices are translated per class and per model history; a test fixes two type lists and one history", "anchors": ["include/opengm/graphicalmodel/graphicalmodel.hxx: operator= (template)", "include/opengm/graphicalmodel/graphicalmodel_function_wrapper.hxx: CopyFunctions"]}
{"id": "C58", "title": "FiFoQueue of capacity n is a queue", "statement": "A FiFoQueue constructed with maxSize accepts any history of push, pop (when not empty) and clear in which it never holds more than maxSize elements, without access out of range; front, size and empty answer as for the list of elements.", "quantifier": "all capacities and histories", "why_tests_cant": "the storage is not circular, so faults appear only for histories with more pushes than the capacity", "anchors": ["include/opengm/utilities/queues.hxx: FiFoQueue"]}
{"id": "C59", "title": "Weighted operations on messages", "statement": "For the operation Adder (scaling by a factor is its hyper-operation), weightedMean(in1, in2, w, out) leaves in1*w + in2*(1-w) in out, and wop, iwop, wiop, iwiop leave out plus or minus in times w (or divided by w); wiop undoes wop.", "quantifier": "all values and weights of a field, and every choice of which arguments are the same object", "why_tests_cant": "the in-place sequence of three operations is right for separate objects only; equality has to hold for every value", "anchors": ["include/opengm/operations/weightedoperations.hxx: weightedMean, wop, iwop, wiop, iwiop"]}
{"id": "C60", "title": "PottsG functions depend on the partition of the labels only", "statement": "A PottsGFunction of any shape is a map from partitions of its variables to values: after any history of setByLabel and setByPartition, evaluating a labeling gives the value last set for the partition it induces (or the constructor's value), a write changes no other partition, isGeneralizedPotts() is right, and isPotts() is true iff the table is a Potts table.", "quantifier": "all shapes, all labelings, all histories of writes, evaluations and other uses of the shared partition tables", "why_tests_cant": "up to order 4 a hand-written switch maps numbers to places, above that a lazily grown table shared by all objects does; tests cover some orders", "anchors": ["include/opengm/functions/pottsg.hxx: PottsGFunction", "include/opengm/utilities/partitions.hxx"]}
{"id": "C61", "title": "SparseFunction is a table with a default value", "statement": "After any history of insert(coordinate, value), a SparseFunction evaluates to the value last inserted at the coordinate and to the default value elsewhere; keyToCoordinate inverts coordinateToKey and distinct coordinates have distinct keys.", "quantifier": "all shapes, default values, histories of insertions and coordinates", "why_tests_cant": "the key arithmetic depends on all extents; a collision of keys would show for particular shapes only", "anchors": ["include/opengm/datastructures/sparsemarray/sparsemarray.hxx: SparseFunction"]}
{"id": "C62", "title": "decomposers cover the model with the submodels they promise", "statement": "Every automatic decomposition returns normally a decomposition object that its public interface could have built, and: decomposeManual puts exactly the listed factors and their variables into the listed submodels; decomposeIntoTree returns one acyclic submodel with every factor once and every variable (duplicated only if the model has a cycle); decomposeIntoSpanningTrees ends and returns acyclic submodels on all variables to which no missing factor can be added without closing a cycle, and that together contain every factor; decomposeIntoKFans returns the fans around the given inner variables (or throws for factors of more than two variables), with as many fans of size k as needed; decomposeIntoOpenBlocks and decomposeIntoClosedBlocks return the factors inside, respectively meeting, each block.", "quantifier": "all models, all factor lists, variable sets and fan sizes", "why_tests_cant": "termination, acyclicity and maximality quantify over all graphs", "anchors": ["include/opengm/graphicalmodel/decomposition/graphicalmodeldecomposer.hxx: GraphicalModelDecomposer"]}
{"id": "C63", "title": "dual decomposition bounds the optimum and reports a labeling with its value", "statement": "DualDecompositionSubGradient on any model and decomposition: in every state reached by the constructor and any calls of infer (any step sizes, visitors, accuracies, iteration counts), the submodels' values at labelings that agree on all copies of each variable sum to the model's value there; infer never reads out of range; value() is the model's value of the labeling arg() returns; if the submodels are solved exactly, bound() is a lower bound (upper bound for maximisation) on the model's value of every labeling; value and bound never get worse; stopping by the convergence test means the result is within the requested accuracy of the optimum; agreement of all submodel labelings makes value, bound and optimum equal; and for models without cycles the tree decomposition is optimal after one iteration.", "quantifier": "all models, decompositions, exact submodel solvers, step size rules, visitors and numbers of iterations", "why_tests_cant": "the invariant on the dual variables must survive arbitrarily many updates with arbitrary step sizes; a lost update of one array shows only as a slightly wrong bound", "anchors": ["include/opengm/inference/dualdecomposition/dualdecomposition_base.hxx: DualDecompositionBase", "include/opengm/inference/dualdecomposition/dualdecomposition_subgradient.hxx: DualDecompositionSubGradient", "include/opengm/functions/modelviewfunction.hxx: ModelViewFunction"]}
{"id": "C64", "title": "AStar: the best labelings in order", "statement": "AStar's infer ends for every visitor. If the visitor does not stop it, args() are the numberOfOpt_ best labelings of the model (all of them if there are fewer) in order, arg(x,n) is the n-th one, value() is evaluate of the first, and no labeling that was not returned is better than bound(). This holds for every order of the variables and every set of tree factors, and each further call of infer returns the same result.", "quantifier": "all models, operations, value orders, node orders, sets of tree factors, objective bounds, heap sizes, visitors, numbers of labelings and of calls", "why_tests_cant": "optimality rests on the heuristic never overestimating for any partial labeling and on the pruning never dropping a better branch; on a sample of models a wrong heuristic mostly still finds the optimum", "anchors": ["include/opengm/inference/astar.hxx: AStar"]}
{"id": "C65", "title": "AlphaBetaSwap: every step is an optimal swap", "statement": "With an exact minimum cut algorithm and a model of order at most two whose terms are submodular for every pair of labels (Potts terms are), infer ends for every visitor; each labeling it passes through is a best one among all labelings that a swap of two labels makes of the one before, so the energy never gets worse; when infer ends without being stopped and iterations are left, no swap of two labels gives a better labeling. The constructor rejects models of order three or more.", "quantifier": "all models with one number of labels, start labelings, minimum cut algorithms, visitors, iteration limits and sequences of calls", "why_tests_cant": "the number of swaps of a labeling is exponential; a wrong capacity in the reduced graph shows only where it changes the best swap", "anchors": ["include/opengm/inference/alphabetaswap.hxx: AlphaBetaSwap"]}
{"id": "C66", "title": "Belief propagation: exact marginals without cycles", "statement": "On a model whose factor graph has no cycle, an infer of MessagePassing with the update rules of belief propagation that no visitor stops ends, and then marginal() of each variable and factorMarginal() of each factor are the marginals of the objective, up to one common factor, for every operation and accumulation that form a semiring (sum and product, minimum and sum, ...). Without normalisation the common factor is neutral if the model is connected; with normalisation the returned values accumulate to the neutral element of the operation. Earlier calls of infer and reset do not matter, and no call reads or writes out of range, for any visitor, also on models with cycles.", "quantifier": "all acyclic models, semirings, visitors, parameters and sequences of calls", "why_tests_cant": "exactness rests on the order in which messages become ready on an arbitrary tree, and on each message being the sum over a whole subtree; a test compares a few small trees", "anchors": ["include/opengm/inference/messagepassing/messagepassing.hxx: MessagePassing::inferAcyclic, marginal, factorMarginal, reset", "include/opengm/inference/messagepassing/messagepassing_bp.hxx: VariableHullBP, FactorHullBP"]}
{"id": "C67", "title": "Belief propagation: optimal labelings without cycles", "statement": "On a model whose factor graph has no cycle, with an accumulation that takes the better of two values (minimum and sum, maximum and product, ...), arg() after an infer of belief propagation that no visitor stops returns an optimal labeling, also when many labelings are optimal and every variable has ties. constrainedOptimum() with given labels returns a labeling that is optimal among those with these labels. modeFromMarginal() returns an optimal labeling.", "quantifier": "all acyclic models, totally ordered values that the operation keeps in order, visitors, parameters, sequences of calls, and given labels", "why_tests_cant": "with ties, labels of different variables are chosen one after the other from conditioned marginals; whether they fit together depends on the shape of the tree and on the order of the walk", "anchors": ["include/opengm/inference/inference.hxx: Inference::modeFromFactorMarginal, modeFromMarginal, constrainedOptimum", "include/opengm/inference/messagepassing/messagepassing.hxx: MessagePassing::arg"]}
{"id": "C68", "title": "disjoint_set answers queries about the relation generated by the joins", "statement": "After any sequence of calls of join, find, size and representativeLabeling on a disjoint_set, all of which end: find returns the same representative for two elements exactly if they have been joined, directly or through other elements, and the representative belongs to the class; size is the number of elements of the class; numberOfSets is the number of classes; representativeLabeling numbers the representatives consecutively from 0 in increasing order.", "quantifier": "all numbers of elements and all histories of calls with elements as arguments", "why_tests_cant": "the sizes are kept only at the roots and the trees depend on the whole history of joins and of finds (which change parents)", "anchors": ["include/opengm/utilities/disjoint-set.hxx: disjoint_set"]}
{"id": "C69", "title": "InfAndFlip is never worse than its inference algorithm and its starting point, and locally optimal", "statement": "InfAndFlip with any inner algorithm INF that returns a labeling: infer ends, arg() is then a labeling, value() is its objective and bound() is the bound of INF. If the visitor does not stop and maxSubgraphSize is positive, also after earlier calls of infer, the labeling is not worse than the one of INF, not worse than the starting point, and no labeling that differs from it on at most maxSubgraphSize variables is better. arg() is a labeling at any time.", "quantifier": "all models, inner algorithms, starting points, subgraph sizes, visitors, and sequences of calls", "why_tests_cant": "the composition is tested on fixed inner algorithms and models; the local optimality is a statement about all labelings near the result", "anchors": ["include/opengm/inference/infandflip.hxx: InfAndFlip", "include/opengm/inference/lazyflipper.hxx: LazyFlipper"]}
{"id": "C70", "title": "A fusion move finds a mixture of two labelings that is not worse than any of them", "statement": "FusionMover and HlFusionMover for two labelings A and B with their values: the model that is given to the solver has one binary variable for each variable on which A and B differ and, up to one constant, the objective of the labelings that take each label from A or from B. fuse returns the value of such a labeling, which is the result and is not worse than A and B, whatever the solver does; with an exact solver it is the best of all such labelings; with the LazyFlipper no such labeling at a distance of at most maxSubgraphSize is better; with QPBO, the terms have the same objective, and the result is the best if QPBO labels all variables optimally. If A and B are the same, the result is A. The mover can be used again any number of times.", "quantifier": "all models, pairs of labelings, solvers, and sequences of uses of one mover", "why_tests_cant": "the factors are restricted with fixed and free variables in any pattern, and the tables of local variables keep entries of earlier moves", "anchors": ["include/opengm/inference/auxiliary/fusion_move/fusion_mover.hxx: FusionMover, HlFusionMover, NativeModelProxy, QpboModelProxy, FuseViewFunction, FuseViewFixFunction"]}
{"id": "C71", "title": "HigherOrderEnergy: the quadratic function has the minimum of the polynomial", "statement": "A HigherOrderEnergy to which variables and monomials (with increasing variables, at most D) were added, and on which ToQuadratic may have been called any number of times before: every further such monomial can be added; ToQuadratic ends with a quadratic function over existing nodes, announces the right number of edges, and for each assignment of the variables the minimum of the quadratic function over the additional nodes is the value of the polynomial without its constant. So a minimizer of the quadratic function gives a minimizer of the polynomial, and a partial assignment that is persistent for the quadratic function is persistent for the polynomial.", "quantifier": "all histories of AddVar, AddVars, AddTerm, AddUnaryTerm and ToQuadratic, all coefficients, degrees and assignments", "why_tests_cant": "the reduction introduces nodes depending on signs, degrees and on which terms share a pair of variables; a wrong coefficient of an additional node shows only for the assignments that need this node", "anchors": ["include/opengm/inference/fix-fusion/higher-order-energy.hpp: HigherOrderEnergy"]}
{"id": "C72", "title": "HQPBO: the labels that QPBO fixes improve every labeling", "statement": "HQPBO on a model with two labels per variable and factors of order at most 10, with a QPBO solver whose labels are persistent: the constructor accepts the model, a labeling can be set as starting point, and infer can be called any number of times. infer overwrites the current labeling with the labels that QPBO fixes; overwriting any labeling with these labels does not increase its objective. So the result is a labeling, not worse than the starting point, and optimal if QPBO fixes all labels.", "quantifier": "all binary models with factors of order at most 10, persistent solvers, and sequences of setStartingPoint and infer", "why_tests_cant": "the coefficients of the monomials are alternating sums over all subsets of the variables of a factor; a wrong sign shows only for particular tables, and persistency is a statement about all labelings", "anchors": ["include/opengm/inference/hqpbo.hxx: HQPBO"]}
{"id": "C73", "title": "AlphaExpansionFusion: each step is a best expansion, and the end is a local optimum", "statement": "AlphaExpansionFusion on a model in which all variables have the same number of labels and factors have order at most 10 (it throws for a larger order), with a QPBO solver whose labels are persistent: after any earlier calls infer ends after at most the given number of steps without invalid accesses; each step changes some variables to one label and does not increase the objective. If the solver labels all variables, each step is the best change of some variables to this label, and when infer ends before the maximal number of steps no change of any set of variables to one label improves the result.", "quantifier": "all such models, label orders, initial labels, solvers, and sequences of calls", "why_tests_cant": "local optimality is a statement about exponentially many moves; factors of order three and more are only tested on single models", "anchors": ["include/opengm/inference/alphaexpansionfusion.hxx: AlphaExpansionFusion"]}
{"id": "C74", "title": "LP reparametrization keeps the energies", "statement": "The storage of dual variables can be created for every model. A write changes one entry only. The value of a factor is its old value plus the entries of its labels, the value of a variable is the sum of its unary factors minus the entries of its other factors, so the reparametrized model has the same variables, scopes and the same energy for every labeling. serialize and deserialize are inverse for two storages of one model, and deserialize throws if and only if the length is wrong. If getArcConsistency calls all variables consistent, its labeling is optimal for the original model up to the tolerance given by epsilon.", "quantifier": "every model, every history of writes and deserializations, every labeling", "why_tests_cant": "The identity must hold for all values of the dual variables and all labelings; optimality quantifies over all labelings.", "anchors": ["include/opengm/inference/auxiliary/lp_reparametrization.hxx: LPReparametrisationStorage, LPReparametrizer::getReparametrizedModel, getArcConsistency"]}
{"id": "C75", "title": "Gibbs sampling: valid states, values and the Metropolis rule", "statement": "For every model with at least one variable, all random numbers and every sequence of constructor, setStartingPoint, reset and infer: no operation fails, the Markov state and arg are labelings, markovValue is the value of the Markov state. currentBestValue is the value of arg, and after infer neither the earlier arg nor any visited state is better than arg. With Multiplier and Maximizer a proposed labeling z of the current x is taken for the random number u if and only if u * value(x) < min(value(x), value(z)). maxNumberOfSamplingSteps samples are drawn, and CYCLIC goes through all variables.", "quantifier": "every model, parameter, history of calls and every sequence of random numbers", "why_tests_cant": "Random sequences and histories of calls are unbounded; the best state must be kept along every one of them.", "anchors": ["include/opengm/inference/gibbs.hxx: Gibbs, Gibbs::infer, Gibbs::reset, Gibbs::setStartingPoint, Gibbs::arg", "include/opengm/utilities/random.hxx: RandomUniform"]}
{"id": "C76", "title": "Swendsen-Wang sampling: clusters, acceptance, detailed balance and best state", "statement": "For every model with at least one variable and positive probabilities, all (non-negative) random numbers and every sequence of constructor, reset and infer: the constructor throws exactly if some edge has a probability outside of the allowed range; reset and infer never fail. In each pass, two adjacent variables with equal labels are joined iff the random number is below the probability of the edge (the share of different labels in the sum over all terms near to the edge; 0 if the numbers of labels differ); one class of the joined variables, chosen uniformly, gets one label in range, chosen uniformly; this is always done in the burn-in phase and afterwards according to the ratio of Metropolis and Hastings; everything else is unchanged. The accepted steps satisfy detailed balance for the distribution of the model. currentBestValue is the value of arg, and no state that was visited is better than arg.", "quantifier": "every model, parameter, history of calls and every sequence of random numbers", "why_tests_cant": "The correctness of a sampler is a statement about all random sequences and about a ratio of products over the boundary of arbitrary clusters; samples cannot settle it.", "anchors": ["include/opengm/inference/swendsenwang.hxx: SwendsenWang, SwendsenWang::infer, SwendsenWang::reset, SwendsenWang::arg, SwendsenWang::computeEdgeProbabilities, SwendsenWang::cluster, SwendsenWang::move", "include/opengm/datastructures/partition.hxx: Partition"]}
{"id": "C77", "title": "Chains, shortest paths, two-hop connections and grids", "statement": "isChain always returns; it is true iff the variables can be listed such that the factors of order two are exactly the consecutive pairs, each once, and no factor has a higher order, and the list returned is such a list. shortestPath always returns; it is true iff a path from s to t through allowed variables exists, and then puts a shortest one, without repetitions, in front of the given list. twoHopConnected lists exactly the variables which are neighbours of both arguments. isGrid always returns; it is true iff the variables can be arranged in a matrix such that the factors of order two are exactly the pairs of horizontal or vertical neighbours, and the matrix returned is such an arrangement.", "quantifier": "every model, every pair of variables, every list of allowed variables", "why_tests_cant": "The number and the numbering of variables are unbounded; wrong answers occur only for some numberings.", "anchors": ["include/opengm/graphicalmodel/graphviews/factorgraph.hxx: FactorGraph::isChain, FactorGraph::isGrid, FactorGraph::shortestPath, FactorGraph::twoHopConnected"]}
{"id": "C78", "title": "Functions with weights are linear, have the right derivatives and can be stored", "statement": "The value of LPotts, LUnary and LWeightedSumOfFunctions at a labeling is the sum over their weights of the current weight (in the Weights object they were given) times weightGradient, which is the feature documented for the class: for LPotts the feature if the labels differ and 0 otherwise, for LUnary the feature of the label for the weights of this label and 0 for others (label 0 is 0 with makeFirstEntryConst), for LWeightedSumOfFunctions the table entry. So changing a weight by t changes the value by t times the derivative. The constructors of LUnary throw exactly for mismatched sizes and for weights used twice. Writing a function and reading it into another object gives the same function. WeightConstraints returns the constraints that were added. The regularizer and the unary loss have the documented values.", "quantifier": "every function of these classes, every vector of weights, labeling and change of a weight; every sequence of added constraints", "why_tests_cant": "Offsets into flat arrays depend on the sizes of all labels; tests check single functions, not all layouts, and linearity is a statement about all weights.", "anchors": ["include/opengm/functions/learnable/lpotts.hxx: LPotts", "include/opengm/functions/learnable/lunary.hxx: LUnary", "include/opengm/functions/learnable/lweightedsum_of_functions.hxx: LWeightedSumOfFunctions", "include/opengm/graphicalmodel/weights.hxx: Weights, WeightRegularizer, WeightConstraints", "include/opengm/functions/unary_loss_function.hxx: UnaryLossFunction"]}
{"id": "C79", "title": "Label costs and penalties of linear equalities have the documented values and can be stored", "statement": "The value of a LabelCostFunction at a labeling is the sum of the costs of the labels that occur, each counted once, for all four constructors. The value of a SumConstraintFunction is lambda times the absolute difference of the sum of the coefficients of the labels and the bound, with own or shared coefficients; so it is zero exactly if the equality holds (unless lambda is zero). Both report dimension, shape and size of the table they stand for. Writing such a function and reading it back gives a function with the same dimension, shape, size and values.", "quantifier": "every shape, costs, coefficients, bound and labeling", "why_tests_cant": "The loops stop early and use offsets into flat arrays; these depend on all numbers of labels. Sizes beyond the range of int need tables that no test evaluates.", "anchors": ["include/opengm/functions/soft_constraint_functions/label_cost_function.hxx: LabelCostFunction, FunctionSerialization<LabelCostFunction>", "include/opengm/functions/soft_constraint_functions/sum_constraint_function.hxx: SumConstraintFunction, FunctionSerialization<SumConstraintFunction>"]}
{"id": "C80", "title": "Linear constraints: values, violated constraints, relaxations, storage", "statement": "An indicator variable is on exactly if all (And), at least one (Or) or none (Not) of its variables have the label given, whatever the order in which the pairs were entered; its comparison is an order which std::sort can use. A LinearConstraint evaluates to the amount by which the labeling misses the bound. A LinearConstraintFunction is valid exactly for labelings which miss every constraint by at most the tolerance of the library, a LabelOrderFunction exactly if the rank of the first label is not above the rank of the second, a NumLabelsLimitationFunction exactly if at most the given number of labels is used. challenge reports exactly the constraints missed by more than the tolerance, each with the amount; challengeRelaxed does so for arbitrary values of the indicator variables, given in the order of the list of indicator variables, and agrees with challenge for the values that belong to a labeling; the constraint of the two special functions means the same as the function. min() and max() are the smallest and largest value. Writing such a function and reading it back gives the same function.", "quantifier": "every set of constraints, coefficients, bounds, shapes, labelings, relaxed labelings, tolerances, orders of insertion, and std::sort implementation", "why_tests_cant": "Lookup tables, early exits, tolerances and shared conventions on the order of indicator variables are only exercised by a few small constraints; sorting with an invalid comparison mostly works by luck.", "anchors": ["include/opengm/datastructures/indicator_variable.hxx:IndicatorVariable", "include/opengm/datastructures/linear_constraint.hxx:LinearConstraint", "include/opengm/functions/constraint_functions/linear_constraint_function.hxx:LinearConstraintFunction", "include/opengm/functions/constraint_functions/label_order_function.hxx:LabelOrderFunction", "include/opengm/functions/constraint_functions/num_labels_limitation_function.hxx:NumLabelsLimitationFunction"]}
{"id": "C81", "title": "The greedy gremlin labels every variable once, best for the factors whose other variables are fixed", "statement": "GreedyGremlin::infer never fails and leaves a labeling. It visits every variable, each one once, each one adjacent to one that was visited before, and gives it a label that is best among all its labels for the factors which have only this variable and variables that were visited before, given their labels; it changes a label only for a better one. After the run, no other label of the variable visited last gives a better labeling; with a single variable the labeling is optimal.", "quantifier": "all models a client can build, all numbers of calls of infer on one object", "why_tests_cant": "The order of the visits depends on the graph; the defects show only in models with several components, or with cycles, in which the label from before the run matters.", "anchors": ["include/opengm/inference/greedygremlin.hxx: GreedyGremlin::infer, arg"]}
{"id": "C82", "title": "A space shows the numbers of labels that were given", "statement": "After any history of constructors, assign, assignDense, addVariable and reserve, a DiscreteSpace or SimpleDiscreteSpace answers with exactly the numbers of labels that were given, addVariable returns the index of the new variable, calls with different numbers of labels on a uniform space throw and change nothing; a GridSpace has dimX times dimY variables; a VectorViewSpace and a ViewSpace show the present content of what they refer to and cannot be changed; isSimpleSpace tells whether all variables have the same number of labels.", "quantifier": "all histories of calls, all widths of the index and label types, all contents of the objects referred to", "why_tests_cant": "Defects show only for empty ranges, for calls that throw, for views and for index types narrower than label types.", "anchors": ["include/opengm/graphicalmodel/space/discretespace.hxx", "include/opengm/graphicalmodel/space/simplediscretespace.hxx", "include/opengm/graphicalmodel/space/grid_space.hxx", "include/opengm/graphicalmodel/space/vector_view_space.hxx", "include/opengm/graphicalmodel/space/viewspace.hxx", "include/opengm/graphicalmodel/space/space_base.hxx: SpaceBase::isSimpleSpace"]}
{"id": "C83", "title": "Functions of one variable own their values", "statement": "A program that works with any number of DynamicSingleSiteFunction objects, by constructing, copying and assigning them, by assign(n), assign(n, v) and by writing elements, sees arrays that are independent of each other: size, shape and every element that was written are as for arrays, nothing is undefined and all objects can be destroyed. For StaticSingleSiteFunction the same holds for copies, assignments and writes. Writing a function to sequences and reading it back gives the same function.", "quantifier": "all programs (any number of objects and operations), all sizes and values", "why_tests_cant": "Errors in the handling of blocks show only for some histories (growing an empty object, shrinking to zero and growing again), and then only as corrupted memory.", "anchors": ["include/opengm/functions/singlesitefunction.hxx: DynamicSingleSiteFunction, StaticSingleSiteFunction, FunctionSerialization"]}
{"id": "C84", "title": "A field of experts has the documented energy and can be stored", "statement": "FoEFunction, made from vectors or iterators and evaluated any number of times, has at labels the value of the sum over the experts of alpha times log(1 + (filter response)^2 / 2), where expert e is row e of the matrix that was given. Its shape is the number of labels for each of its variables. Writing it and reading it back gives the same function. setDefault makes the field of the three filters in the code.", "quantifier": "all numbers of experts and variables, all filters, weights and labels, all numbers of earlier evaluations", "why_tests_cant": "The filters are found by offsets into a flat array, which depend on all sizes; a wrong layout gives plausible numbers.", "anchors": ["include/opengm/functions/fieldofexperts.hxx: FoEFunction, FunctionSerialization<FoEFunction>"]}
{"id": "C85", "title": "Views of factors have the values of the factors they refer to", "statement": "ViewFunction, ViewConvertFunction, AccumulatedViewFunction, ScaledViewFunction and ModelViewFunction show the present values of the factors they refer to, as they are, converted to probabilities, combined, scaled, or with an offset, and have the shape of the factor. The product of the converted factors of a model is the exponential of the (scaled) value of the labeling, or the value itself (or its inverse) for models that multiply. A model in which groups of factors with the same variables are replaced by accumulated views has the same values.", "quantifier": "all models, labelings, scales, offsets, temperatures and ways to group factors", "why_tests_cant": "Statements about products over all factors of arbitrary models; conversion errors cancel for single factors or temperature one.", "anchors": ["include/opengm/functions/view.hxx: ViewFunction", "include/opengm/functions/view_convert_function.hxx: ViewConvertFunction", "include/opengm/functions/accumulated_view.hxx: AccumulatedViewFunction", "include/opengm/functions/scaled_view.hxx: ScaledViewFunction", "include/opengm/functions/modelviewfunction.hxx: ModelViewFunction"]}
{"id": "C86", "title": "The explicit storage and the explicit copy of a model have the values of the model", "statement": "After ExplicitStorage storage(gm), storage[gm[j]][k] is the value of factor j for its k-th tuple of labels (first label fastest), for all factors and all k; all entries of the block are written. ConvertToExplicit::convert(gm, out) replaces out by a model with the same variables and numbers of labels, the same factors in the same order with the same values, hence the same value for every labeling; it has one explicit function for each function of gm. Copies of a storage can be destroyed like the original.", "quantifier": "all models with any numbers of function types, functions, factors and shapes; all factors and tuples; all labelings", "why_tests_cant": "Depends on how many functions of which types a model has: the order of the identifiers in the map and the offsets are only exercised by models that mix types.", "anchors": ["include/opengm/graphicalmodel/graphicalmodel_explicit_storage.hxx: ExplicitStorage, ConvertToExplicit, FunctionIteratation", "include/opengm/graphicalmodel/graphicalmodel.hxx: FunctionIdentification::operator<"]}
{"id": "C87", "title": "The Kernighan-Lin partitioning never fails, terminates, never makes a labeling worse and ends in a local optimum", "statement": "PartitionMove throws in the constructor for every model that is no partition problem (a variable with fewer labels than there are variables, a factor of one or of more than two variables, a factor of two variables that is not Potts). For every partition problem the constructor succeeds; before and after any number of calls of infer, whatever the order in which hash sets are visited and whatever the visitor answers, arg gives a labeling with labels in range; infer terminates and the energy of arg never increases. If all energies are integers and the visitor never stops it, infer ends in a labeling that no change of the label of a single variable improves.", "quantifier": "all models, all numbers of calls, all iteration orders of hash sets, all answers of the visitor", "why_tests_cant": "Gains are updated incrementally along sequences of moves; a wrong update shows only for some graphs, some orders of moves and never as a crash. Termination is a statement about all runs.", "anchors": ["include/opengm/inference/partition-move.hxx: PartitionMove, PartitionMove::infer, PartitionMove::inferKL, PartitionMove::solveBinaryKL, PartitionMove::arg"]}
{"id": "C88", "title": "The 2-SAT solver decides satisfiability", "statement": "For every model of binary variables whose factors are Boolean functions of two variables, SAT::infer succeeds, and then value() is true if and only if some labeling makes all factors true; this holds after any number of calls of infer, with any visitors. If some factor does not have exactly two variables, infer throws and the solver is as before.", "quantifier": "all models of binary variables, all numbers of calls of infer, all visitors, all correct algorithms for strongly connected components", "why_tests_cant": "Satisfiability is a statement about all labelings; a wrong or missing implication shows only for formulas in which it is the only way to a contradiction.", "anchors": ["include/opengm/inference/sat.hxx: SAT, SAT::infer, SAT::value", "include/opengm/inference/visitors/visitors.hxx: VerboseVisitor::begin, TimingVisitor::begin"]}
{"id": "C89", "title": "modelTrees finds the trees of a model", "statement": "For every model, the constructor of modelTrees succeeds; the parents it reports form trees that hang on the rest of the model: every variable with a parent is adjacent to it and all its edges are edges between parent and child, following the parents leads to a root, the variables with children but without a parent are the roots, and no more leafs can be cut off. treeOfVariable gives the root, treeOfRoot the number of the tree, numberOfTrees and roots the number and the list of roots, nodes the variables of each tree. In a model without cycles the trees are exactly the connected components with more than one variable.", "quantifier": "all models a client can build, all variables", "why_tests_cant": "Termination and the relation of parents to all edges depend on the structure of arbitrary graphs and on the order in which leafs are removed.", "anchors": ["include/opengm/utilities/modelTrees.hxx: modelTrees, modelTrees::treeOfVariable, modelTrees::parentOfVariable, modelTrees::treeOfRoot, modelTrees::roots, modelTrees::nodes, modelTrees::numberOfTrees"]}
{"id": "C90", "title": "A submodel of selected variables has the energy of the model, up to a constant", "statement": "SubmodelOptimizer builds, after any history of setLabel, setVariableIndices, unsetVariableIndices and inferSubmodel, a model of the selected variables whose value for any labels of these variables is the combination of all terms of the model that have a selected variable, all other variables having their current labels; the energy of the model differs from it by an amount that does not depend on the labels of the selected variables. So a best labeling of the submodel, put into the current labels, is a best labeling among all that agree with the current labels on the other variables. inferSubmodel returns the result of the subsolver, and true iff it differs from the current labels; inSubmodel and submodelSize describe the selection; selecting twice, and optimising or giving up an empty selection, throw and change nothing.", "quantifier": "all models a client can build, all histories of calls with increasing lists of variables, all subsolvers, all labelings, all commutative operations", "why_tests_cant": "Marks of handled factors and of selected variables survive from one call to the next, so an error shows only in later calls; partial fixing of factors depends on positions, orders and labels of arbitrary factors.", "anchors": ["include/opengm/inference/auxiliary/submodel/submodel_builder.hxx: SubmodelOptimizer, SubmodelOptimizer::setLabel, SubmodelOptimizer::setVariableIndices, SubmodelOptimizer::unsetVariableIndices, SubmodelOptimizer::inferSubmodel, SubmodelOptimizer::buildModelOpenGm, SubmodelOptimizer::inSubmodel, SubmodelOptimizer::submodelSize", "include/opengm/functions/view_fix_variables_function.hxx: ViewFixVariablesFunction"]}
{"id": "C91", "title": "The canonical view of a model has the same values, one unary factor per variable and one factor per clique", "statement": "CanonicalView(gm) can be constructed for every model; it has the variables of gm, for each variable exactly one factor on this variable alone, and for every other set of variables on which gm has factors exactly one factor; the value of each factor is the combination of the values of all factors of gm on exactly these variables. So every labeling has the same value in the view as in gm.", "quantifier": "all models a client can build, with any numbers of factors on the same variables, any function types and any operation; all labelings", "why_tests_cant": "Grouping and sharing of functions depend on which factors have the same variables or the same function; tests use one operation and few function types.", "anchors": ["include/opengm/utilities/canonical_view.hxx: CanonicalView, canonical_view_internal::FunctionInjector", "include/opengm/functions/accumulated_view.hxx: AccumulatedViewFunction"]}
{"id": "C92", "title": "The bound of a fractional labeling is that of the weights that were set last", "statement": "PrimalLPBound can be constructed exactly for models in which no two factors of one variable have the same variable. After any history of calls, getVariable returns the weights set last, getVariableValue the weighted sum of the factor of the variable, getFactorValue the optimal value of the transportation problem between the weights of the two variables of the factor, getFactorVariable a solution of this problem, and getTotalValue the sum over all factors, for the weights set last; for factors of other orders the methods throw.", "quantifier": "all models a client can build, all histories of calls of setVariable and of the five queries", "why_tests_cant": "Values are buffered and invalidated by factor; an out-of-date value shows only for particular orders of calls.", "anchors": ["include/opengm/inference/auxiliary/primal_lpbound.hxx: PrimalLPBound, PrimalLPBound::setVariable, PrimalLPBound::getVariable, PrimalLPBound::getVariableValue, PrimalLPBound::getFactorValue, PrimalLPBound::getFactorVariable, PrimalLPBound::getTotalValue", "include/opengm/inference/trws/utilities2.hxx: VariableToFactorMapping", "include/opengm/inference/auxiliary/transportationsolver.hxx: TransportationSolver::Init, TransportationSolver::Solve"]}
{"id": "C93", "title": "The iterators over shapes, labels and subsequences are random access iterators", "statement": "The iterators that the library gives out over the shape of a function, the shape of a factor, the labels of the variables of a factor in a labeling, and a subsequence given by indices, behave like positions in the sequence: any series of increments, decrements and jumps that stays within the sequence leads to the position that the distances add up to; dereferencing gives the element there; comparisons and differences are those of the positions, negative ones included; postfix operators return the iterator as it was; a loop from begin to end visits all elements in order; moving an accessor iterator forwards beyond the end leaves it at the end. Dereferencing a const iterator object gives the same element, and an iterator over the variables of a factor gives its variables.", "quantifier": "for all sequences whose length is representable, all models built by valid calls, all factors, labelings, all series of moves within the sequence and all pairs of iterators", "why_tests_cant": "there are infinitely many series of moves, and wrong results for negative differences and const objects only show up with algorithms that use them; reading an object that is gone may seem to work", "anchors": ["include/opengm/utilities/accessor_iterator.hxx: AccessorIterator", "include/opengm/utilities/shape_accessor.hxx: FunctionShapeAccessor, FactorShapeAccessor, SubsetAccessor, GmLabelFactorLabelAccessor, FactorVariablesAccessor", "include/opengm/utilities/subsequence_iterator.hxx: SubsequenceIterator"]}
{"id": "C94", "title": "Decomposing a multicut problem does not lose optimality", "statement": "For a multicut problem (a partition problem all of whose factors have two variables), DMC with an exact solver for the subproblems finds labels in the range of the model with the least energy of all labelings; value() is the energy of arg(), and models that are not multicut problems are rejected.", "quantifier": "for all multicut problems built by valid calls, all weights, all thresholds and all exact solvers of the subproblems", "why_tests_cant": "optimality is a statement about all labelings, and the components depend on all weights; errors for pairs of variables with several factors or for models of another form do not show up in the usual tests", "anchors": ["include/opengm/inference/dmc.hxx: DMC::infer, DMC::arg, DMC::value"]}
{"id": "C95", "title": "Merging the factors with the same variables keeps the function", "statement": "mergeFactors(gm, gmOut) with an empty model of the same variables gives a model that has, for every labeling, the same value as gm; each set of variables has at most one factor there, and those are the sets of variables of the factors of gm; models with factors of more than two variables are rejected with an exception.", "quantifier": "for all models built by valid calls (any number of variables, labels and factors), all labelings, all sizes of the index type", "why_tests_cant": "equality of two functions of all labelings; wrong merging by equal keys needs tens of thousands of variables; dropped constants and added factors of products only show up in models that have them", "anchors": ["include/opengm/inference/auxiliary/submodel/submodel_builder.hxx: mergeFactors, SubmodelOptimizer::mergeFactorsAndInferDp"]}
{"id": "C96", "title": "The starting point from a threshold is the partition into connected components", "statement": "startFromThreshold(gm, lambdas, result, threshold) gives two variables the same label if and only if they are connected by factors whose lambda is above the threshold; the labels are 0, 1, ... without gaps, and they are labels of the model if each variable has as many labels as there are variables; a model with a factor that has not two variables is rejected with an exception.", "quantifier": "for all models built by valid calls, all values of the factors and all thresholds", "why_tests_cant": "connectivity is a statement about all paths, and the union-find structure passes through different states for each order of the factors", "anchors": ["include/opengm/inference/cgc/generate_starting_point.hxx: startFromThreshold"]}
{"id": "C97", "title": "Fusing two partitions never makes things worse and keeps the cost of each merged partition", "statement": "PermutableLabelFusionMove: intersect(a, b, res) gives two variables the same label if and only if they are connected by factors of two variables that neither a nor b separates, with labels 0, 1, ... without gaps, and returns their number; factors of more variables are rejected. fuse(a, b, res, valA, valB, valRes) hands the solver a problem on these parts in which every solution costs as much as the partition it stands for, and afterwards res is the best of a, b and the partition the solver found, with its value in valRes.", "quantifier": "for all models built by valid calls, all pairs of partitions and all answers of the solver", "why_tests_cant": "the parts depend on all paths, weights of parallel factors are accumulated under computed keys, and the solver can answer anything", "anchors": ["include/opengm/inference/auxiliary/fusion_move/permutable_label_fusion_mover.hxx: PermutableLabelFusionMove::intersect, fuse, doMoveMulticut, doMoveCgc"]}
