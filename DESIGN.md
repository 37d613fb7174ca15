# Design: a Lean 4 model of opengm

## Trusted base

* Lean 4.33.0's kernel. Every theorem listed in MANIFEST.json depends on at most the axioms
  `propext`, `Classical.choice`, `Quot.sound` (checked with `#print axioms`). No own axioms, no `sorry`,
  no `native_decide`/`bv_decide`.
* The reading of `/repo` (C++ templates) into Lean definitions. Every definition of the model carries the file
  and line range it models, and its simplifications.

## General modelling conventions

* `std::vector`, `FastSequence`, `RandomAccessSet`, C arrays are `List`s. Out-of-range access, i.e. undefined
  behaviour, is the distinct outcome `none` (or `Except.error .ub`) — never a default value. A thrown
  exception is a separate outcome (`Except.error .throw`) that carries the state left behind, where that matters.
* `size_t` values are `Nat`. Wrap-around is only modelled where a property is about it
  (`unsignedIntegerPow`, and the `shape-1` in walkers for extent 0, which is excluded by a stated precondition).
* Values (`double` etc.) are elements of an abstract algebra: commutative monoid for OPERATOR, abelian group where
  the code uses inverse operations, linear order for accumulators. Floating point rounding, NaN and overflow
  are outside the model.
* Templates over function types are modelled by one abstract function record (shape + evaluation).
* Loops are structural recursions/folds; `while` loops carry a fuel argument, and a theorem shows that
  enough fuel exists (termination) where the property claims it.
* Assertions (`OPENGM_ASSERT`) vanish under NDEBUG; they are modelled as preconditions of the theorems, not
  as behaviour. `OPENGM_CHECK_OP` always throws and is modelled as such.

## Layout

* `Verif/Spec/*.lean`  – small independent specifications (no reference to the model).
* `Verif/Model/*.lean` – the model, function by function, with source citations.
* `Verif/Lemmas/*.lean` – helper lemmas.
* `Verif/Props/*.lean` – property theorems, each with an `example` showing its hypotheses are met.

## Plan per property

| id | modelled | proof idea |
|----|----------|------------|
| C01 | GM state, addVariable/addFunction/addFactor, evaluate loop with state buffer | invariant by induction over build histories; fold lemma |
| C02 | per-variable adjacency insertions in addFactor | invariant over histories |
| C03 | addFactorNonFinalized, finalize loops | equality of resulting states |
| C04 | addFactor with push-before-check order | negation by witness; partial: success path |
| C05 | function tables, linear search | invariant over histories |
| C06 | comparison operators of function identifiers | negation by witness; partial for one type |
| C07 | object store, factors pointing at the owner's vectors | refinement: evaluate through pointers |
| C08, C09 | loops over adjacency in FactorGraph | reduction to membership via C02 |
| C10 | templatedFactorAdjacencyList | negation by witness and partial theorem |
| C11 | isConnected with merges of Partition | reachability invariant of the merges |
| C12 | isAcyclic: breadth first search with two queues | cycle/forest invariant |
| C13 | order_ update, maxFactorOrder loop | induction |
| C14-C17 | Movemaker state and methods | invariant; exchange of touched factors; negation for C17 |
| C18, C19 | ICM loops with flags | flag invariant and decrease of the rank of the labeling |
| C20 | Bruteforce odometer | enumeration lemma shared with C21 |
| C21-C23 | walkers | mixed-radix numbering |
| C24-C26, C55-C57 | factor operations on coordinates, IndependentFactor | via C21-C23 |
| C27, C28 | view with fixed variables, manipulator | list induction; splitting of sums |
| C29 | message recursion over node order | induction over the forest |
| C30-C33 | container state machines | refinement to abstract set, equivalence, map, list; memory model and negations for C33 |
| C34-C36, C51, C53, C54 | stride arithmetic of marray views and iterators | mixed-radix bijection |
| C37, C38, C40, C60, C61 | function classes | algebra, list round trip, decision procedures against definitions |
| C39 | tree of datasets written and read | round trip; negations |
| C41, C42 | edge capacities; expansion step | energy identity per factor; cut/labeling correspondence; negations |
| C43-C48, C58, C59 | utilities and operations | direct |
| C49 | Tagging, Adjacency, Forest, LazyFlipper | every set of differing variables splits into connected parts, each with a canonical path; invariant that all generated paths are covered by active variables |
| C50, C62 | decomposition and decomposer | invariants over histories |
| C52 | model copies and conversions | simulation |
| C63 | dual decomposition | weak duality by exchange of sums |
| C64 | A* search: parameters, construction, fast heuristic (tree elimination), heap with pruning, infer, args | invariant that heap and found labelings cover all labelings; admissibility of the heuristic by induction over the leaf elimination |
| C65 | alpha-beta-swap on top of the model of GraphCut | each reduced graph represents the energy of the swaps; loop invariant; the pairs of labels cycle |
| C66 | belief propagation: construction, reset, inferAcyclic with its schedule, marginal, factorMarginal | exact messages as sums over the sides of the edges of the forest; invariant of the schedule: counters are the messages still missing |
| C67 | constrainedOptimum, modeFromMarginal, modeFromFactorMarginal of Inference, arg of belief propagation | invariant of the walk: some optimal labeling has all labels set so far; exchange argument on the part of the tree behind the new variable |
| C68 | disjoint_set with its histories of calls | refinement: invariant on trees, ranks and sizes; equivalence generated by the joins |
| C69 | InfAndFlip with an arbitrary inner algorithm | composition with the theorems on LazyFlipper |
| C70 | FusionMover (setup, fillSubModel, fuse, fuseQpbo) and HlFusionMover with the LazyFlipper; solvers are arbitrary functions | the emitted factors are the restrictions of the terms that mention a differing variable, each once; the energy splits; composition with the theorems on LazyFlipper |
| C71 | HigherOrderEnergy (AddVar(s), AddTerm, AddUnaryTerm, Clear, ToQuadratic with its eliminations) with the list of terms of each variable | the sum of the terms represents the polynomial as a minimum over the new nodes; invariant through the eliminations |
| C72 | HQPBO (constructor, setStartingPoint, infer) with an arbitrary persistent QPBO | Möbius inversion on the subsets of the variables of a factor: the polynomial is the objective up to a constant; composition with C71 |
| C73 | AlphaExpansionFusion (constructor, infer, alpha schedule) with an arbitrary persistent QPBO | the polynomial is the objective of the expansions; invariant of the loop: the labels of the last unchanged steps do not improve |
| C74 | LPReparametrisationStorage (dual variables, local ids, values, serialize, deserialize), ReparametrizationView, LPReparametrizer::getReparametrizedModel and getArcConsistency | the storage always has one row per factor of order at least two and variable (invariant); double counting of the entries over factors and variables; arc consistency: each factor attains its optimum at the labeling, sum over the factors |
| C75 | Gibbs: constructor, reset, setStartingPoint, infer, arg on the model of Movemaker; random numbers are arguments | invariant over reachable objects: Movemaker tracks a labeling, the best state is a labeling; with a start point the best value is its value and the current state is not better |
| C76 | SwendsenWang: computeEdgeProbabilities, constructor, reset, infer (cluster, search, ratio, move), arg on the models of Movemaker, Partition and IndependentFactor; random numbers are arguments | table of probabilities by refinement to sums over tuples; classes of the partition as generated equivalence; search invariant; boundary products; detailed balance by splitting the product over edges into those inside, outside and across the cluster |
| C77 | FactorGraph: isChain, shortestPath, twoHopConnected, isGrid | isChain: invariant of the traversal (used factors are the links of the variables visited, which have no other factors), degrees in a duplicate-free list for the converse; shortestPath: invariant of Dijkstra's loop with unit lengths, walks as lower bounds; isGrid: no out-of-range access, witnesses for the violations |
| C78 | Weights, WeightRegularizer, WeightConstraints, LPotts, LUnary (both constructors), LWeightedSumOfFunctions with serialization, UnaryLossFunction | loops as sums over ranges; layout of the offsets table of LUnary by induction over labels (blocks of a flattened list); the sum over all weights reduces to the block of the label |
| C79 | LabelCostFunction and SumConstraintFunction: constructors, operator(), shape, dimension, size with the machine arithmetic of the code, serialization | loop invariant: set of labels found so far; offsets as prefix sums into a flattened list; product in an int is the product modulo 2^32; round trip by computation on both layouts |
| C80 | IndicatorVariable (all constructors, operators), LinearConstraint, LinearConstraintFunction, LabelOrderFunction, NumLabelsLimitationFunction with challenge, challengeRelaxed and serialization; std::sort as a parameter with the contract of the standard | loops refine to filterMap over the numbered constraints; insertion sort is a sorted permutation; round trip by generic lemmas on readers; witnesses for the comparison |
| C81 | GreedyGremlin: construct, infer (waiting list, colours, values of the labels), arg | invariant: the waiting list is the list of coloured variables, then zeros, a prefix of it was visited, colours are the variables adjacent to visited ones; the run refines the inductive relation GreedyRun; witnesses for components and triangle |
| C82 | DiscreteSpace, SimpleDiscreteSpace, GridSpace, VectorViewSpace, ViewSpace, SpaceBase::isSimpleSpace, with unsigned types of any width and a memory for the objects views refer to | invariant by induction over the history: the object is the list that was given; loop of isSimpleSpace by induction; witnesses |
| C83 | StaticSingleSiteFunction and DynamicSingleSiteFunction with their serialization, with pointers that may be invalid | refinement: each object holds an array of its own, by induction over the program; every operation that grows an empty object is undefined; loops of serialize and deserialize by induction |
| C84 | FoEFunction: constructors, setDefault, operator() with its buffer, size, serialization | the two loops by induction, with the position in the flat array as invariant; the filters setDefault leaves are computed symbolically |
| C85 | ViewFunction, ViewConvertFunction with ValueToProbability, AccumulatedViewFunction, ScaledViewFunction, ModelViewFunction over a list of factors | fold of the accumulating loop by induction, permutations of groups, homomorphism of the exponential over the list of factors |
| C86 | ExplicitStorage (offsets, the block of values, the pointer for a factor) and ConvertToExplicit (tables, map of identifiers, factors) | invariant of the nested loops over types and functions: the block is the concatenation of the tables; the map is the list of all identifiers; refinement to the problem the model represents |
| C87 | PartitionMove: constructor (problem type, weights, neighbour maps, initial components), solveBinaryKL, inferKL with visitor, arg; iteration order of hash sets is any permutation | gain of a move by sums over the weight matrix, invariant of the gains along a move sequence, sets represent a labeling, strict decrease gives termination within the number of labelings; a round without a change has tried every single move (neighbouring sets and splits), so the result is a local optimum; witness for parallel factors |
| C88 | SAT: constructor, infer with visitor, value; strong_components of Boost is a parameter with a contract | edges of the graph are the implications of the forbidden pairs, skew symmetry, a satisfying labeling is closed under reachability, and conversely a closed consistent set of literals is built variable by variable; witness for visitors |
| C89 | modelTrees: constructor (removal of leafs), parentOfVariable, treeOfVariable, treeOfRoot, roots, nodes, numberOfTrees | invariant of the removal (removed variables, remaining neighbours, stack of leafs, order of the removals), termination by a measure, a finite acyclic graph with an edge has a leaf (Mathlib) |
| C90 | SubmodelOptimizer: constructor, setLabel, setVariableIndices, unsetVariableIndices, buildModelOpenGm, inferSubmodel with any subsolver, inSubmodel, submodelSize | invariant over histories (selection, index maps, marks all false); the factors done so far are marked and have mirrored terms in the submodel; permutation of the touched terms; the rest does not depend on the selected variables |
| C91 | CanonicalView with CloneNever: constructor, FunctionInjector, accumulated views | invariant of the grouping (lists and sorted map hold the factors of each scope in order), invariant of the construction (model represents the combined terms, the map of functions agrees), regrouping a commutative combination; witnesses for the Multiplier and for several function types |
| C92 | PrimalLPBound: constructor, setVariable, getVariable, getVariableValue, getFactorValue, getFactorVariable, getTotalValue; VariableToFactorMapping; the transportation solver is a parameter | invariant over histories: every buffered value is the mark or the value for the current weights; witnesses for solutions of other factors, old solutions, exceptions and the dangling pointer |
| C93 | AccessorIterator with arithmetic modulo the size of size_t, the accessors with their const and non-const operators, SubsequenceIterator | Induction over the series of moves with the position as invariant; induction over the loop from begin to end; the violations by evaluation for all positions and models |
| C94 | DMC::infer with the union-find structure of the library, the decomposition, the used factors, the submodels and the offsets | The components are those of the relation of weights above the threshold; the energy splits into the cut weights inside components and the weights between them, which are all not positive; an exact solver is optimal inside; induction over the subproblems with the written labels and the offset as invariant |
| C95 | mergeFactors with its two maps and keys modulo the size of the index type, the output model with its functions, factors and adjacency | Invariant of the loop over the factors: the output model represents a list of terms with distinct variables whose sum is that of the terms seen; keys are injective without overflow; replacing one function of a model replaces one term |
| C96 | startFromThreshold with the union-find structure (path compression included) and the map of representatives | The loop over the factors is a history of merges; the class theorem of C31 gives the components; the loop over the variables keeps the representatives |
| C97 | PermutableLabelFusionMove::intersect and fuse with the union-find structure, the accumulated weights with their keys, and the choice of the result; the solver is any function | The loop over the factors is a history of merges (class theorem of C31); induction over the factors shows that the accumulated weights cost what the partition costs, since keys can be decoded; case distinction for the choice |

The status of each property and the exact theorem names are in MANIFEST.json. Names ending in `_partial` prove a part of the English claim and say what is missing; names containing `violated` prove that the code does not satisfy the claim on a concrete input.

## What is modelled

The first paragraph of each file of `Verif/Model`:

* `AStar.lean`: Model of include/opengm/inference/astar.hxx (class AStar), with NDEBUG (OPENGM_ASSERT does nothing).
* `Acyclic.lean`: Model of FactorGraph::isAcyclic (factorgraph.hxx 337-385). In all functions the outer `none` is undefined behaviour (index out of range) or a loop that has not ended within the fuel; the inner `none` is `return false`.
* `AlphaBetaSwap.lean`: Model of include/opengm/inference/alphabetaswap.hxx (class AlphaBetaSwap) with INF = GraphCut<GM, ACC, MINSTCUT>, ACC Minimizer or Maximizer. The operation of the graphical model is the sum. A visitor is any sequence of answers: `visit k` says whether the `k`-th call asks to stop. `none` is an access out of range. Assertions are compiled out.
* `AlphaExpansion.lean`: Model of include/opengm/inference/alphaexpansion.hxx (class AlphaExpansion) with INF = GraphCut<GM, Minimizer, MINSTCUT>. The operation of the graphical model is the sum, the visitor always continues. `none` is an access out of range.
* `Basic.lean`: Conventions shared by the whole model of opengm.
* `Bruteforce.lean`: Model of include/opengm/inference/bruteforce.hxx (class Bruteforce). The visitor is one that always returns ContinueInf; the labelings at which it is called are recorded in `visited`.
* `CanonicalView.lean`: Model of include/opengm/utilities/canonical_view.hxx (CanonicalView with CloneNever, the default; FunctionInjector) and of the accumulated views it creates (include/opengm/functions/accumulated_view.hxx 91-120). The canonical view refers to factors of the wrapped model, so its values may be undefined: it is a `GM (Option V)`. The merged list of function types is given by its length and by the positions in it of the old types, of ConstantFunction and of AccumulatedViewFunction. A pointer to a factor of the wrapped model is the factor record. The options CloneViews and CloneDeep, which copy functions to tables, are not modelled.
* `Client.lean`: A client of the class GraphicalModel: it keeps the function identifiers the model returns (in the order of the calls) and passes them to addFactor.
* `Connectivity.lean`: Model of FactorGraph::isConnected (factorgraph.hxx 390-424).
* `DMC.lean`: Model of include/opengm/inference/dmc.hxx (class DMC): decomposition of a multicut problem into the components that are connected by weights above a threshold.
* `Decomposer.lean`: Model of include/opengm/graphicalmodel/decomposition/graphicalmodeldecomposer.hxx (class GraphicalModelDecomposer).
* `Decomposition.lean`: Model of include/opengm/graphicalmodel/decomposition/graphicalmodeldecomposition.hxx (class GraphicalModelDecomposition).
* `DisjointSet.lean`: Model of include/opengm/utilities/disjoint-set.hxx (class disjoint_set). The element type is `Nat`. `none` is undefined behaviour (an element out of range) or a search that does not end. Copying (two objects then share the array) is not modelled.
* `DualDecomposition.lean`: Model of include/opengm/inference/dualdecomposition/dualdecomposition_base.hxx (class DualDecompositionBase), dualdecomposition_subgradient.hxx (class DualDecompositionSubGradient), dddualvariableblock.hxx and include/opengm/functions/modelviewfunction.hxx, for graphical models with sums of values.
* `DynamicProgramming.lean`: Model of include/opengm/inference/dynamicprogramming.hxx (class DynamicProgramming), with NDEBUG, so the assertion `gm_.isAcyclic()` of the constructor is a no-op. `none` and `.ub` stand for undefined behaviour. The visitor does nothing. The two allocated blocks are modelled as one buffer per variable, and an access outside the buffer of the variable is undefined behaviour (in C++ it may instead hit the buffer of another variable: the model is stricter). `bop` and `accNeutral` are `ACC::bop` and `ACC::neutral`. `std::numeric_limits<>::max()` used as a mark is `none`.
* `ExplicitModel.lean`: Model of include/opengm/graphicalmodel/graphicalmodel_explicit_storage.hxx: class ExplicitStorage (all values of all functions of a model in one block of memory) and class ConvertToExplicit (a model that stores every function as a table).
* `FactorGraph.lean`: Model of include/opengm/graphicalmodel/graphviews/factorgraph.hxx (class FactorGraph), the CRTP base class that answers structural queries through numberOfVariables(), numberOfFactors(), numberOfVariables(f), variableOfFactor(f,j), numberOfFactors(v), factorOfVariable(v,j).
* `FactorGraphPaths.lean`: Model of the path queries of include/opengm/graphicalmodel/graphviews/factorgraph.hxx (class FactorGraph): isChain (431-522), isGrid (526-708), shortestPath (948-1068) and twoHopConnected (1077-1097). Out-of-range reads and writes, lookups of absent map keys and non-termination are `none`. The value `std::numeric_limits<size_t>::max()` used as "infinity" is `Option.none`.
* `FactorOps.lean`: Model of include/opengm/functions/operations/operator.hxx, accumulator.hxx and of the class IndependentFactor (include/opengm/graphicalmodel/graphicalmodel_factor.hxx).
* `FieldOfExperts.lean`: Model of include/opengm/functions/fieldofexperts.hxx: FoEFunction. Values are elements of a commutative ring; `half` and `log` stand for `0.5` and `std::log`. `l` is the buffer for the labels, which operator() writes although it is const; calls from several threads are not modelled. Assertions are not checked (NDEBUG); integer types are unbounded.
* `FixFusion.lean`: Model of the algorithms that reduce factors of any order to a quadratic function: include/opengm/inference/hqpbo.hxx (class HQPBO), include/opengm/inference/alphaexpansionfusion.hxx (class AlphaExpansionFusion) and FusionMover::fuseFixQpbo in include/opengm/inference/auxiliary/fusion_move/fusion_mover.hxx.
* `FunctionStorage.lean`: Models of functions with storage: serialization of ExplicitFunction and cloneAsExplicitFunction (functions/explicit_function.hxx), SparseFunction (datastructures/sparsemarray/sparsemarray.hxx, functions/sparsemarray.hxx) and PottsGFunction (functions/pottsg.hxx).
* `Functions.lean`: Models of the function types in include/opengm/functions (potts.hxx, pottsn.hxx, constant.hxx, absolute_difference.hxx, squared_difference.hxx, truncated_absolute_difference.hxx, truncated_squared_difference.hxx), of the fallback implementations in function_properties_base.hxx and of FunctionSerialization.
* `FusionMover.lean`: Model of include/opengm/inference/auxiliary/fusion_move/fusion_mover.hxx: FuseViewFunction, FuseViewFixFunction, NativeModelProxy, QpboModelProxy, FusionMover (setup, fillSubModel, fuse, fuseQpbo), and HlFusionMover::fuse with the LazyFlipper (the solver that is used without external libraries).
* `Gibbs.lean`: Model of include/opengm/inference/gibbs.hxx: class Gibbs, with the integers of RandomUniform (utilities/random.hxx).
* `GraphCut.lean`: Model of include/opengm/inference/graphcut.hxx (class GraphCut). The min st-cut solver (template argument MINSTCUT, e.g. auxiliary/minstcutboost.hxx) is external: what it is told is kept as a network, and `calculateCut` is an argument `solver` that gets the network and the old contents of the vector it writes to.
* `GraphicalModel.lean`: Model of include/opengm/graphicalmodel/graphicalmodel.hxx (class GraphicalModel), of the part of include/opengm/graphicalmodel/graphicalmodel_factor.hxx (class Factor) it uses, and of include/opengm/graphicalmodel/space/discretespace.hxx.
* `GreedyGremlin.lean`: Model of include/opengm/inference/greedygremlin.hxx (class GreedyGremlin). The visitor is one that always returns ContinueInf (EmptyVisitor). `none` is undefined behaviour. `marginal`, `factorMarginal` and `args` only return UNKNOWN, `reset` does nothing.
* `Hdf5.lean`: Model of include/opengm/graphicalmodel/graphicalmodel_hdf5.hxx: saving a graphical model to a file and loading it.
* `HigherOrderEnergy.lean`: Model of include/opengm/inference/fix-fusion/higher-order-energy.hpp: class HigherOrderEnergy (AddVar, AddVars, AddTerm, AddUnaryTerm, ToQuadratic, Clear), with a quadratic representation that records the calls it gets (fix-fusion/quadratic-rep.hpp 19-36).
* `ICM.lean`: Model of include/opengm/inference/icm.hxx (class ICM). The visitor is one that always returns ContinueInf (EmptyVisitor); `while` loops carry a fuel argument, `none` when it runs out (see `Icm.fuel`) or on undefined behaviour.
* `InfAndFlip.lean`: Model of include/opengm/inference/infandflip.hxx: class InfAndFlip (an inference algorithm, then the LazyFlipper from its labeling or from the starting point). The inference algorithm INF is an argument: from the starting point that it is given (or none) to its labeling and its bound.
* `Iterators.lean`: Model of include/opengm/utilities/accessor_iterator.hxx (AccessorIterator), include/opengm/utilities/shape_accessor.hxx (the accessors) and include/opengm/utilities/subsequence_iterator.hxx (SubsequenceIterator). Assertions are not checked (NDEBUG). `N` is the number of values of size_t (2^64); arithmetic of indices is modulo N. Pointers to sequences that are only compared are numbers.
* `LazyFlipper.lean`: Model of include/opengm/inference/lazyflipper.hxx: the classes Tagging, Adjacency, Forest and LazyFlipper.
* `Learnable.lean`: Model of functions with weights: graphicalmodel/weights.hxx (Weights, WeightRegularizer, WeightConstraints), functions/learnable (LPotts, LUnary, LWeightedSumOfFunctions) and functions/unary_loss_function.hxx.
* `LinearConstraint.lean`: Linear constraints: IndicatorVariable, LinearConstraint, and the constraint functions LinearConstraintFunction, LabelOrderFunction and NumLabelsLimitationFunction. Modelled: /repo/include/opengm/datastructures/indicator_variable.hxx, linear_constraint.hxx, /repo/include/opengm/functions/constraint_functions/linear_constraint_function.hxx, label_order_function.hxx, num_labels_limitation_function.hxx (constructors, comparison, operator(), shape, size, min, max, challenge, challengeRelaxed, serialization). Labels, indices and sizes are natural numbers (`size_` of functions made from a shape as in Model/SoftConstraint). The result of challenge is the list of the numbers and weights between the iterators it returns; the vectors it is written to have a fixed length, and writing behind their end is `none`. `std::sort` on pairs, a total order, is insertion sort; `std::sort` on indicator variables is a parameter, because the comparison is not a strict weak ordering in general. LabelOrderFunction is modelled with the compile time constants of the code (`useSingleConstraint_` true, `useMultipleConstraints_` false). The tolerance `OPENGM_FLOAT_TOL` is a parameter; counts are compared as numbers. The default constructors of the functions are not modelled. Values are a commutative ring with an order.
* `Manipulator.lean`: Model of include/opengm/graphicalmodel/graphicalmodel_manipulator.hxx (class GraphicalModelManipulator) without `lockAndTentacelElimination` (486-861; its start is in Model/Tentacle.lean): the tentacle members stay empty, all entries of `tentacleFactor_` are false.
* `Marray.lean`: Model of include/opengm/datastructures/marray/marray.hxx: geometry, views, iterators, arrays.
* `MergeFactors.lean`: Model of `mergeFactors` in include/opengm/inference/auxiliary/submodel/submodel_builder.hxx: the factors of a model that have the same variables become one factor of another model.
* `MessagePassing.lean`: Model of include/opengm/inference/messagepassing/messagepassing.hxx (class MessagePassing) with the update rules of belief propagation (messagepassing_bp.hxx, messagepassing_buffer.hxx, messagepassing_operations_withFunctors.hxx), with NDEBUG: construction, reset, infer on acyclic models (inferAcyclic) and marginal. `none` is an access out of range. Not modelled: inferParallel, inferSequential, damping (inferAcyclic calls `propagate` with damping 0), convergence, the update rules of TRBP.
* `Mode.lean`: Model of opengm/inference/inference.hxx: `constrainedOptimum`, `modeFromMarginal`, `modeFromFactorMarginal` (the labeling of an inference algorithm from its marginals), and messagepassing.hxx `arg`. The virtual functions `marginal` and `factorMarginal` are arguments (the values by label, first label fastest); that they end with a return code other than NORMAL is not modelled. The label "maximum" that stands for "not set" is `none`.
* `ModelCopy.lean`: Model of copies of class GraphicalModel (include/opengm/graphicalmodel/graphicalmodel.hxx: copy constructor 322-345, operator= 774-798, operator= for other function type lists 801-835; graphicalmodel_function_wrapper.hxx 43-112 CopyFunctions).
* `ModelTrees.lean`: Model of include/opengm/utilities/modelTrees.hxx (class modelTrees): the trees of a model, found by removing leafs.
* `Movemaker.lean`: Model of include/opengm/inference/movemaker.hxx (class Movemaker).
* `Operations.lean`: Models of include/opengm/operations/*.hxx and utilities/accumulation.hxx. One value type for all arguments. `op`, `iop` are the in-place forms (the result is the new value of `out`), `op3`, `iop3` the forms with three arguments; `out` is passed because the code may read it. Numbers are abstract (any type with the operations named in the class brackets); floats are not modelled.
* `Partition.lean`: Model of include/opengm/datastructures/partition.hxx (disjoint sets with path compression and union by rank). The element type is `Nat`. `none` is undefined behaviour (out-of-range element) or non-termination of a search loop.
* `PartitionMove.lean`: Model of include/opengm/inference/partition-move.hxx (class PartitionMove): the Kernighan-Lin heuristic for partitioning models.
* `Partitions.lean`: Model of include/opengm/utilities/partitions.hxx (class Partitions<I, L>). `w` is the number of bits of the unsigned type `I`, `ws` that of `size_t`. Node labels are natural numbers (no overflow: they are smaller than the number of nodes). The static vector `partitions` is the state.
* `PermutableFusion.lean`: Model of include/opengm/inference/auxiliary/fusion_move/permutable_label_fusion_mover.hxx (class PermutableLabelFusionMove): `intersect`, and `fuse` with a solver for multicut problems (`doMoveMulticut`, `doMoveCgc`).
* `PrimalBound.lean`: Model of include/opengm/inference/auxiliary/primal_lpbound.hxx (PrimalLPBound) and of VariableToFactorMapping in include/opengm/inference/trws/utilities2.hxx 33-62. The transportation solver is a parameter: its result and solution are a function of the factor and of the two sequences of weights, and it does not throw. Its method `Init` stores the address of the wrapped factor it gets (transportationsolver.hxx 722), and `Solve` reads the object at this address (1096); `getFactorValue` passes a temporary, whose lifetime ends before `Solve` is called. The parameter `lives` says whether the memory of the temporary can be read nevertheless: by the rules of the language it cannot. ResetBuffer, which does not compile when it is used, is not modelled.
* `Queues.lean`: Model of include/opengm/utilities/queues.hxx: class ChangeablePriorityQueue (65-242) and class FiFoQueue (10-57).
* `RandomAccessSet.lean`: Model of include/opengm/datastructures/randomaccessset.hxx : a set stored as a sorted vector. The element order is given by the `Compare` function object, modelled as a Boolean function `lt`.
* `Reparametrization.lean`: Model of include/opengm/inference/auxiliary/lp_reparametrization.hxx: LPReparametrisationStorage, ReparametrizationView, LPReparametrizer.
* `Sat.lean`: Model of include/opengm/inference/sat.hxx (class SAT): deciding models with Boolean factors of two binary variables.
* `Sequences.lean`: Models of include/opengm/datastructures/fast_sequence.hxx (FastSequence) and buffer_vector.hxx (BufferVector) with explicit memory.
* `SingleSite.lean`: Model of include/opengm/functions/singlesitefunction.hxx: StaticSingleSiteFunction (StackStorage and HeapStorage behave alike), DynamicSingleSiteFunction and their serialization, for a type `T` of values whose elements have no value after `new T[n]` (built-in numbers). An element without value is `none`; reading it is undefined behaviour, copying it with the whole array is not reported. Blocks are never shared: each object has its own. Reading a pointer that was never set without using it (`std::copy` of an empty range) is not reported. Assertions are not checked (NDEBUG).
* `SoftConstraint.lean`: Soft constraint functions: LabelCostFunction and SumConstraintFunction. Modelled: /repo/include/opengm/functions/soft_constraint_functions/label_cost_function.hxx, sum_constraint_function.hxx (constructors, operator(), shape, dimension, size, serialization). Labels, indices and sizes are natural numbers; `size_` is computed with the machine arithmetic of the code (an `int` accumulator in the constructors that take a shape, a 64 bit power in the others). The shape iterator has value type `size_t`. The states are a list; reading behind its end, or behind the end of a vector, is `none`. The default constructors are not modelled. Values are a commutative ring with an order.
* `Spaces.lean`: Model of include/opengm/graphicalmodel/space: DiscreteSpace, SimpleDiscreteSpace, GridSpace, VectorViewSpace, ViewSpace and SpaceBase. The types of indices and labels are unsigned types; a value that is converted to such a type is taken modulo its number of values. Assertions are not checked (NDEBUG). static_simplediscretespace.hxx is not modelled: `return static_cast<L> LABELS;` (line 96) does not compile. GridSpace::numberOfLabels(x, y) is declared and not defined, so it is not modelled.
* `StartingPoint.lean`: Model of include/opengm/inference/cgc/generate_starting_point.hxx: a partition of the variables by a threshold.
* `Submodel.lean`: Model of include/opengm/inference/auxiliary/submodel/submodel_builder.hxx (class SubmodelOptimizer): the model of some of the variables of a model, all other variables having their current labels.
* `SwendsenWang.lean`: Model of include/opengm/inference/swendsenwang.hxx: class SwendsenWang.
* `Tentacle.lean`: Model of the start of `lockAndTentacelElimination` (include/opengm/graphicalmodel/graphicalmodel_manipulator.hxx 493-540): the checks, the degrees of the factors and variables and the list of leafs. What follows it (the search for tentacles from the leafs, 543-861) is not modelled.
* `Utilities.lean`: Models of small utilities: include/opengm/utilities/sorting.hxx, unsigned_integer_pow.hxx and tribool.hxx.
* `ViewFix.lean`: Model of include/opengm/functions/view_fix_variables_function.hxx (class ViewFixVariablesFunction).
* `Views.lean`: Model of the functions that refer to factors of another model: include/opengm/functions/view.hxx (ViewFunction), view_convert_function.hxx (ViewConvertFunction), accumulated_view.hxx (AccumulatedViewFunction), scaled_view.hxx (ScaledViewFunction) and modelviewfunction.hxx (ModelViewFunction). The other model is a list of factors as it is when the function is used; a pointer or reference to a factor is its position. A factor is its numbers of labels and its operator(), which is `none` where it is undefined (factors are modelled in other files). Assertions are not checked (NDEBUG); integer types are unbounded.
* `Walkers.lean`: Model of include/opengm/utilities/indexing.hxx: the walkers over all coordinate tuples of a shape.

## What is not modelled

* Floating point arithmetic: values are exact elements of an abstract algebra (see conventions).
* Memory allocation failure, threads, file system failures and the HDF5 library itself (C39 models the tree of datasets).
* Wrappers of external solvers (`inference/external`, CPLEX, MRF-LIB, TRWS, QPBO, max-flow libraries). Where the code calls one,
  the solver is an argument of the model, with a stated contract (exact minimum cut for C41 and C42).
* The template machinery (type lists, metaprogramming): a type list is a list of classes, dispatch is by position.
* Visitors other than their answer "continue" or "stop"; timing.
* The parts of `/repo/include/opengm` that are not cited in a file of `Verif/Model`, in particular loopy message passing
  convergence, the temperature schedule of gibbs, learning, the Python bindings and the command line interface.

## Disagreements between code and property

Each is a proved theorem about the model (files in `Verif/Props`).

* `C04_violated` (GraphicalModel.lean): C04 is violated by every rejected call: the model left behind has one more factor than before.
* `C06_le_violated` (GraphicalModel.lean): Even within one function type, `<=` and `>=` are not `not >` and `not <`: they are always true.
* `C06_violated` (GraphicalModel.lean): C06 is violated: `operator<` of function identifiers is not antisymmetric, hence no strict order.
* `C10_violated` (FactorGraph.lean): C10 is violated: in the graph with factors {0,1}, {1,2}, {3}, {}, {0,1,2}, the list of factor 2 = {3} contains the factors of variable 0, which share no variable with it.
* `C17_violated` (Movemaker.lean): C17 is violated: after moveOptimallyWithAllLabelsChanging on variables 1 and 2 the labeling is still (0,0,0), but valueAfterMove for variable 0 with label 1 answers 11, the value of (1,1,0), instead of 1.
* `C18_violated` (ICM.lean): C18 is violated for Multiplier and Maximizer on nonnegative values: the run that starts in (0,0) (value 0) ends in (0,1) with value 1 although relabelling variable 0 gives (1,1) with value 2.
* `C19_violated` (ICM.lean): C19 is violated: the run from (0,0,0,0) ends in (0,0,1,1) with value -10 although relabelling the two variables 0, 1 of the first factor gives (1,1,1,1) with value -14.
* `C24_binary_violated` (FactorOps.lean): C24 fails for two factors without variables: the result is resized to shape {0} and then written to.
* `C25_accumulate_violated` (FactorOps.lean): C25 fails for factors without variables: 0 is accumulated instead of the value of the factor.
* `C28_nolock_violated` (Manipulator.lean): C28 is violated without `lock`: `buildModifiedModel` and `buildModifiedSubModels` lock the manipulator themselves, but read beyond the end of a vector that only `lock` allocates.
* `C28_tentacle_violated` (Tentacle.lean): C28, tentacle elimination, violated: `pushed2Leafs` has one entry for each factor but is indexed by variables. So for every model and every history, lockAndTentacelElimination writes behind the end of a vector whenever a leaf has an index at or above the number of factors, as for the last variable of every tree without unary factors; the smallest model has two variables and one factor.
* `C29_violated_infinite` (DynamicProgramming.lean): C29 is violated for infinite costs: if all labels of the second variable are infinitely bad for some label of the first one, `infer` reads a variable that was never set, although labelings of value 0 exist.
* `C29_violated_roots` (DynamicProgramming.lean): C29 is violated when the parameter lists one root that is not in the tree of variable 0: variable 0 is never visited, and the constructor writes beyond the end of an array.
* `C32_equivalent_violated` (Queues.lean): C32 without totality: pushing an item again with an equivalent but different priority keeps the old one.
* `C33_violated_assign` (Sequences.lean): Assigning a short sequence to a long one: the block is lost and the destructor calls `delete[]` for the stack.
* `C33_violated_assign_leak` (Sequences.lean): Assigning a long sequence to a short one that has a heap block: that block is never freed.
* `C33_violated_bufferVector_pushOwn` (Sequences.lean): `v.push_back(v[0])` reads freed memory.
* `C33_violated_copy` (Sequences.lean): Six calls of `push_back` double the capacity of the stack (5) to 10; the copy has room for 6 entries but believes in a capacity of 10, and `push_back` to the copy writes behind its memory.
* `C33_violated_copy_destroy` (Sequences.lean): The copy of a short sequence with a heap block points to its own stack but has a capacity above 5: its destructor calls `delete[]` for the stack.
* `C33_violated_copy_empty` (Sequences.lean): So does a copy of an empty vector.
* `C33_violated_fill_leak` (Sequences.lean): The constructor with size 0 and a value allocates a block that is never freed.
* `C33_violated_pushOwn` (Sequences.lean): `s.push_back(s[0])` reads the old array after it has been freed.
* `C33_violated_reserve` (Sequences.lean): `reserve` changes the size.
* `C33_violated_resize_leak` (Sequences.lean): After `clear`, `resize` to a larger size loses the old block.
* `C33_violated_uninitialised` (Sequences.lean): A vector constructed with size 0 has no valid pointer: assigning a nonempty vector frees an arbitrary address.
* `C36_resize_violated` (Marray.lean): C36 fails: resizing a `1×3` array to `3×1` has undefined behaviour.
* `C37_violated_potts` (FunctionValues.lean): C37 is violated: with one label per variable the value for different labels does not occur, but `min()` reports it.
* `C38_violated_default` (Serialization.lean): C38 is violated by a default-constructed explicit function: `src(0)` is read although there is no entry.
* `C39_violated_hidden` (Hdf5.lean): C39 fails: the class Potts is stored (without functions) before the class of constants, which is first in the new type list. The position of the unknown class stays 0 in the table, so that the constants are not read: loading succeeds, and the factor of the loaded model has no function.
* `C39_violated_noVariables` (Hdf5.lean): C39 fails for models without variables: the array of the numbers of labels has no memory, and is read.
* `C39_violated_notEmpty` (Hdf5.lean): Loading into a model that is not empty: the factors in the adjacency of the old model stay, and the order of the old model, so that the adjacency of the only variable names a factor that does not exist.
* `C40_violated_isDifference_range` (FunctionStructure.lean): C40 is violated: if the first variable has one label, the entry of labels (1, 0) is read.
* `C40_violated_isGeneralizedPotts_order` (FunctionStructure.lean): C40 is violated: a function of five variables (or one) is never recognised, even if constant.
* `C40_violated_isGeneralizedPotts_range` (FunctionStructure.lean): C40 is violated: with fewer labels than variables, isGeneralizedPotts() reads outside of the function.
* `C40_violated_isPotts_unary` (FunctionStructure.lean): C40 is violated for functions of one variable: the value of label 1 is not looked at.
* `C40_violated_isTruncated_complete` (FunctionStructure.lean): C40 is violated: a truncated difference whose second variable has more labels is not recognised.
* `C40_violated_isTruncated_sound` (FunctionStructure.lean): C40 is violated: a function that mixes the truncated and the plain value at the same distance is accepted.
* `C41_violated_infer_twice` (GraphCut.lean): Calling `infer` twice adds the edges of source and sink a second time (lines 376-379), so that they count double: for every exact solver the second call makes the labeling worse.
* `C41_violated_order3` (GraphCut.lean): The third variable index of a factor of order 3 is read from position 1 (line 251), so that terms that belong to the third variable are added to the second one: for every exact solver the result is not optimal, although the factor of order 3 is submodular (it is linear).
* `C41_violated_order3_range` (GraphCut.lean): `tripleId` counts up `numVariables_` instead of its own counter (line 357), so that the identifiers of the auxiliary nodes leave the graph: with five factors of order 3 the constructor writes out of range.
* `C42_violated_labels` (AlphaExpansion.lean): If the variables have different numbers of labels, alpha can be a label that a variable does not have; the value of a factor is then read out of range, although the constructor accepts the model.
* `C42_violated_localOpt` (AlphaExpansion.lean): LOCALOPT_LABEL takes the index of a factor for the index of a variable: with one unary term, on the second of two variables, the first variable gets the label that is best for the second.
* `C42_violated_localOpt_range` (AlphaExpansion.lean): With more unary terms than variables LOCALOPT_LABEL reads out of range.
* `C42_violated_monotone` (AlphaExpansion.lean): For metric terms an expansion can increase the energy: in `linearOps`, started at labels 0, 1 with energy 3, the first step with alpha = 3 leads to labels 3, 1 with energy 4, for every exact solver.
* `C42_violated_optimal` (AlphaExpansion.lean): Even for Potts terms an expansion does not find the best labeling it can reach: in `pottsOps` the labels 1, 2 have energy 5 and changing both to alpha = 0 gives energy 2, but the labels stay as they are. The auxiliary variable costs nothing if both variables keep their different labels (the terms for var1 and var2, lines 363-364, penalise the wrong case).
* `C43_violated_and` (Operations.lean): C43 is violated by And on integers (bitwise conjunction with neutral element 1); Or on integers has a neutral element.
* `C43_violated_integral` (Operations.lean): C43 is violated by Minimizer and Maximizer on integer types, where `numeric_limits<int>::infinity()` is 0: the neutral element is not neutral.
* `C43_violated_integrator` (Operations.lean): C43 is violated by Integrator: the in-place inverse operation has no effect.
* `C43_violated_logsumexp` (Operations.lean): C43 is violated by Logsumexp: the form with three arguments ignores the second one and uses the old value of the result.
* `C44_violated_neutral` (Operations.lean): C44 (neutral) is violated: `neutral()` of the object returns the length of the stored state.
* `C45_find_violated` (Utilities.lean): An empty sequence is read at position -1.
* `C46_violated_empty` (Partitions.lean): C46 is violated for `getPartition(n, l)` with an empty `l`: `l[0]` is written.
* `C46_violated_large` (Partitions.lean): C46 is violated for 16 and more elements: the table of Bell numbers is read out of range, instead of the error for too few bits.
* `C48_violated` (Utilities.lean): C48 is violated: both `t == false` and `t != false` hold for a Tribool that is false, and neither holds for one that is true.
* `C48_violated_eq` (Utilities.lean): C48 is violated for two Tribools: "maybe" is not equal to itself, "false" equals "maybe", and this is not symmetric.
* `C49_violated_second` (LazyFlipper.lean): C49 is violated for a second call of `infer`: on this model the first call goes from (0,0) to (1,1), but when `setStartingPoint` and `reset` are called and `infer` is called again, it stays at (0,0), although (1,1) differs from it on 2 = `maxSubgraphSize()` variables and is better.
* `C49_violated_singleLabel` (LazyFlipper.lean): C49 is violated for models with a variable that has one label: when the visitor ends `infer` after the first improvement (its third call), the object answers `arg()` = (0,1,1,0) and `value()` = -5, but `evaluate` gives 5, which is worse than the value 0 of the labeling at the start.
* `C50_violated_emptyId` (Decomposition.lean): The number of a sub-factor without a factor is not stored, although it is counted.
* `C50_violated_isValid` (Decomposition.lean): A decomposition in which the copy of a factor depends on copies of the wrong variables is reported as valid.
* `C50_violated_isValid_short` (Decomposition.lean): A sub-factor with too few variables is not reported: `isValid` reads behind the end of its list of variables.
* `C50_violated_isValid_size` (Decomposition.lean): For a model with more variables than the decomposition `isValid` reads behind the end of the lists.
* `C52_strong_violated` (ModelCopy.lean): C52 fails in one point: an assignment that throws changes its target: afterwards the target reports the number of variables of the source (here 1 instead of 2).
* `C53_iterate_violated` (Marray.lean): C53 fails for this view: making the iterator reads the shape strides of dimension `0-1`.
* `C54_decrement_violated` (Marray.lean): C54 fails at the end: for a transposed 2×2 array, decrementing `end()` gives an iterator with the index of the last element that refers to another element.
* `C56_constant_violated` (FactorOps.lean): C56 fails for a constant factor without variables: its value is `T()`.
* `C58_reuse_violated` (Queues.lean): C58 fails if the queue is used for more than `maxSize` pushes, although it never holds more than one element: the second push writes out of range.
* `C59_violated_aliasing` (Operations.lean): C59 is violated when the result object is the second argument, which only an assertion excludes.
* `C60_violated_default` (PottsG.lean): C60 is violated by a default-constructed object: `isPotts` reads `values_[0]`, which is not there.
* `C60_violated_isPotts` (PottsG.lean): C60 is violated by `isPotts` for fewer labels: three variables with two labels each, and a value set for the partition into three classes, which no labeling has.
* `C60_violated_order` (PottsG.lean): C60 is violated above eleven variables: the tables of partitions cannot be built (an exception), and from sixteen variables on the table of Bell numbers is read out of range.
* `C61_violated_overwrite` (SparseFunction.lean): C61 is violated by a second insertion at the same tuple: the value stays the first one.
* `C61_violated_overwrite_always` (SparseFunction.lean): C61: a second insertion at a tuple never has an effect.
* `C62_violated` (Decomposer.lean): The violated cases: a model with variables but without factors has no spanning tree, so the decomposition does not contain its variables; a model without variables has no fan, so its constants are lost; open blocks that cover the variables need not cover the factors; fans of size zero are undefined.
* `C63_violated_no_submodel` (DualDecomposition.lean): A model without factors has no spanning trees, and `infer` reads element 0 of an empty vector.
* `C63_violated_openBlocks` (DualDecomposition.lean): Open blocks that do not contain all factors: `bound()` is 0 although a labeling has the value -1.
* `C64_violated_bound` (AStar.lean): C64 is violated for `bound()` of models with constant factors, which the search ignores: here `value()` is 15 and, with Maximizer, `bound()` is 5. Also, `arg(conf, 0)` reads out of bounds.
* `C64_violated_boundOfMany` (AStar.lean): C64 is violated for `bound()` when more than one labeling is asked for: with Minimizer and `numberOfOpt_` 2, `value()` is 2 and `bound()`, the value of the last labeling found, is 5.
* `C64_violated_heapSize` (AStar.lean): C64 is violated for heaps that are too small: with `maxHeapSize_` 2 `infer` returns NORMAL and (1,0,1) with value 11, although (0,0,0) has the value 10; with `maxHeapSize_` 1 it reads the first element of an empty array.
* `C64_violated_parallel` (AStar.lean): C64 is violated for models in which two factors have the same two variables: with the default tree factors `infer()` does not end. In the first call of fastHeuristic, after the first run over the factors, both are in `factorList`, the degrees of the variables are 4 and 2, and each is put back for ever.
* `C64_violated_second` (AStar.lean): C64 is violated for a second call: `reset()` does nothing, and `infer()` goes on where it stopped. On this model the first call finds (0,0,0) with value 10, the optimum; after `reset()` the second call returns NORMAL, `arg` gives (0,1,0) and `value()` is 11.
* `C64_violated_triple` (AStar.lean): C64 is violated with FASTHEURISTIC for factors of more than two variables (which the constructor accepts as long as they are not tree factors): the value of a complete configuration is taken to be that of (0,0,0). On this model `infer` returns NORMAL and (1,0,0) with value 5, although (1,1,1) has the value 0.
* `C64_violated_unknown` (AStar.lean): C64 is violated for the result of `infer` when the heap becomes empty: one labeling is asked for and found, and it is the only one, but `infer` returns UNKNOWN.
* `C65_violated_early` (AlphaBetaSwap.lean): C65 is violated for the last labeling: `infer` counts the steps without improvement, but does not start again after an improvement. On this model, started at (0,1), it ends after four steps with (0,2) and energy 1, although there are 1000 iterations and one swap of 0 and 2 leads to (2,2) with energy 0; for every exact solver.
* `C65_violated_labels` (AlphaBetaSwap.lean): C65 is violated for models with different numbers of labels, although the constructor accepts them: the value of a factor is read out of range.
* `C66_violated_normalization` (MessagePassing.lean): C66: normalised marginals need not add up to 1, even if they are not 0: if they add up to 0.00001 or less, they are not normalised.
* `C66_violated_reset` (MessagePassing.lean): C66: `reset` does not set the messages to the neutral element: they keep the values of the last but one `infer`, so that after two calls of `infer` and `reset` the marginals are not those of a new object. (A further `infer` is not affected: `C66_marginals_partial`.)
* `C67_violated_constrained` (Mode.lean): C67: with two given labels in a connected component, the labeling that `constrainedOptimum` returns is not optimal among those with these labels: each label that is not given is chosen from a single factor and only sees the given labels of this factor. Here the variables 0 and 2 are given 0 and 1, the variable 1 gets 1 (objective 10), and 0 is better (objective 5).
* `C67_violated_ties` (Mode.lean): C67: with ties, the labels that `modeFromMarginal` takes from the marginals of the variables do not fit together, even on a tree: the two variables should have different labels, and both get 0. `arg` (which does not use `modeFromMarginal`) returns different labels.
* `C69_violated_arg` (InfAndFlip.lean): C69: `arg()` before `infer` reads the labels of an empty vector, also after `setStartingPoint`.
* `C69_violated_start` (InfAndFlip.lean): C69: if the visitor stops, or with `maxSubgraphSize_` 0, the labeling is that of INF even if the starting point is better: here (0,1) with the objective 2, although the starting point has 0.
* `C70_violated_fixQpbo` (FixQpbo.lean): C70 (violated): `fuseFixQpbo` lets a set bit stand for the first argument when it builds the terms of factors of order two and more, but for the second argument in factors of order one and when it reads the labels. So it takes the wrong labels although QPBO finds the minimum: here the result (1,0) of the fusion of (0,0) and (1,1) has the value 0, but (0,1) has the value -5. This holds for every solver that labels all nodes with a minimum of the quadratic function.
* `C70_violated_unknown` (FusionMover.lean): C70 is violated for a solver with the status UNKNOWN (for example, one that reaches its time limit before it has a labeling): if the second argument is better, then `fuse` returns the value of the second argument, but the result is the first argument. Here the value returned is 11 and the result has the value 15.
* `C71_violated_clear` (HigherOrderEnergy.lean): C71 (violated): `Clear` removes the variables but keeps counting from the old number, so the variable that `AddVar` returns afterwards does not exist (a write out of range), and the constant is kept. Here two variables and the constant 3 are added, then `Clear` and `AddVar`.
* `C71_violated_constant` (HigherOrderEnergy.lean): C71 (violated): a quadratic representation does not get the constant of the polynomial, so a lower bound of the quadratic function is not a lower bound of the polynomial: for the polynomial `-3` the quadratic function is 0.
* `C71_violated_unsorted` (HigherOrderEnergy.lean): C71 (violated): the interface of `AddTerm` does not say that the variables must be in increasing order, but with `x3 x2 x1 x0` given in decreasing order `ToQuadratic` meets a positive term of degree three and stops in its assertion.
* `C72_violated_labels` (Hqpbo.lean): C72 (violated): HQPBO accepts variables with more than two labels, but only considers the labels 0 and 1: for one variable with the values 1, 1, 0 the best label 2 is never found, whatever QPBO does.
* `C72_violated_oneLabel` (Hqpbo.lean): C72 (violated): for a variable with a single label the constructor reads the value of the label 1, which does not exist.
* `C72_violated_order` (Hqpbo.lean): C72 (violated): the constructor accepts a factor of order 11 and writes behind the end of its array of 10 variables.
* `C73_violated_labels` (AlphaExpansionFusion.lean): C73 (violated): the constructor accepts variables with different numbers of labels, but infer then evaluates the factors at labels that do not exist: here label 2 for a variable with two labels, whatever QPBO does.
* `C74_violated_arc` (Reparametrization.lean): C74 (violated): getArcConsistency for variables without terms of their own: all variables are called consistent, with labels that were never looked at, and a labeling that is not optimal.
* `C74_violated_constant` (Reparametrization.lean): C74 (violated): the value of a term without variables: the code then reads variable 0 of the term.
* `C74_violated_noUnary` (Reparametrization.lean): C74 (violated): variables without terms of their own. The dual variables are added to the term of both, and subtracted nowhere: the reparametrized model has other energies, and another optimum.
* `C74_violated_twoUnaries` (Reparametrization.lean): C74 (violated): a variable with two terms of its own: each of them gets the sum of both, so that the energies change without any write.
* `C75_violated_cyclic` (Gibbs.lean): C75 (violated): CYCLIC: for every model with at least two variables, only variable 1 is ever changed by infer, with all random numbers: the other variables of the Markov states keep the labels of the start.
* `C75_violated_default` (Gibbs.lean): C75 (violated): without a start point, the value of the start is not recorded: infer starts at (0,0) with value 0, which is optimal, visits (0,1) and (1,1), and then `arg` is (1,1) with value 4.
* `C75_violated_reset` (Gibbs.lean): C75 (violated): reset without a start point sets the best state to the labels 0 but keeps the best value. Here, after setStartingPoint at (1,1), with value 1, and reset, `currentBestValue` is 1 but the value of `arg` is 9; and then infer visits (0,1) and (1,1), but `arg` stays at the worst labeling.
* `C75_violated_steps` (Gibbs.lean): C75 (violated): `maxNumberOfSamplingSteps` and `numberOfBurnInSteps`: each proposal of another label counts twice, so that there are at most half as many samples, for every model and all random numbers.
* `C76_violated_burnin` (SwendsenWang.lean): C76 (violated): the states in the burn-in phase are not considered. Here the second state in the burn-in phase is (1,1) with value 3, but in the end `arg` is (1,0) with value 2.
* `C76_violated_initial` (SwendsenWang.lean): C76 (violated): the constructor with an initial state records its value, but the labels 0 as best state. Here the initial state (1,1) is optimal with value 3, and also after infer `arg` is (0,0), which has value 1 and is the worst labeling, with `currentBestValue` 3.
* `C77_violated_allowed` (FactorGraphPaths.lean): C77 is violated for lists of allowed variables with duplicates: as soon as the list is as long as the number of variables (factorgraph.hxx 955) it is not looked at. On the chain 0 - 1 - 2 with the allowed variables 0, 2, 2 the path 0, 1, 2 is returned.
* `C77_violated_grid_cycle` (FactorGraphPaths.lean): C77 is violated: the search for the corner opposite to the first one (factorgraph.hxx 607) compares with the wrong path (`shortestPaths[diagonalCorner]` instead of `shortestPaths[diagonalCorner - 1]`), so that the second corner is never chosen. For the cycle 0 - 1 - 2 - 3 - 0, a grid of two rows and two columns, the result is true with a matrix of three rows and two columns, in which variables occur twice.
* `C77_violated_grid_extra` (FactorGraphPaths.lean): C77 is violated: variables without factors of order two are ignored. A grid of two rows and two columns together with a separate variable is called a grid, although the matrix does not contain that variable.
* `C77_violated_grid_missed` (FactorGraphPaths.lean): C77 is violated: for the same reason a grid of three rows and three columns, whose corners are numbered around its border, is not recognized.
* `C77_violated_twoHop` (FactorGraphPaths.lean): C77 is violated for neighbours: the condition of factorgraph.hxx 1084 is always true, since the two inequalities are joined by `||`. In the model with the single factor {0, 1} the variables 0 and 1 are reported to be connected via two hops, through variable 0.
* `C78_violated_constraint_bounds` (Learnable.lean): **Violation.** `WeightConstraints::addConstraint` (weights.hxx 237-256) ignores its last two arguments: the bounds of a constraint are never stored, and `constraintLowerBound(ci)` and `constraintUpperBound(ci)` read out of range for every constraint, whatever was added.
* `C78_violated_sum_roundtrip` (Learnable.lean): **Violation.** `FunctionSerialization<LWeightedSumOfFunctions>::deserialize` (lweightedsum_of_functions.hxx 225-260) reads into local variables and never writes the destination: whatever is read, the destination stays as it was. A model with such functions that is loaded from a file has functions without variables, whose value is 0.
* `C79_violated_roundtrip_size` (SoftConstraint.lean): C79: writing and reading a function with 32 variables of two labels that was made from its shape changes the number of entries it reports from zero to `2 ^ 32`.
* `C79_violated_size` (SoftConstraint.lean): C79: the number of entries of a function of 32 variables with two labels each, made from its shape, is reported as zero: the product is computed in an `int`, the type of the start value `1` of `std::accumulate`. The constructor that takes the two numbers reports `2 ^ 32`.
* `C80_violated_lessEqual` (LinearConstraint.lean): C80: `a <= c` although neither `a < c` nor `a == c`, for two indicator variables with two pairs.
* `C80_violated_max` (LinearConstraint.lean): C80: for four variables with two labels, of which two may be used, every labeling is valid, but `max()` reports the value for invalid labelings.
* `C80_violated_order` (LinearConstraint.lean): C80: the comparison `operator<` is not a strict weak ordering: `a` and `c` are equivalent, `c` and `b` are equivalent, but `a < b`. The constructor of LinearConstraintFunction sorts the indicator variables of its constraints with `std::sort` and this comparison, which is undefined for these three.
* `C81_components_violated` (GreedyGremlin.lean): C81 is violated in a model that is not connected: the algorithm stops with label 0 for variable 1, although label 1 is better and depends on no other variable. (Variable 0 is visited twice and variable 1 never.)
* `C81_empty_violated` (GreedyGremlin.lean): C81: `infer` on a model without variables writes to the first entry of empty vectors (undefined behaviour).
* `C81_fixed_violated` (GreedyGremlin.lean): C81: the documentation says that factors with variables that are not fixed so far are ignored (except for the current variable). This is violated: in the triangle, variable 1 gets a label that depends on the label of variable 2 from before the run, and no order of the variables gives the result in the documented way. The documented algorithm gives a better labeling.
* `C82_violated_grid` (Spaces.lean): C82: the number of variables of a grid is computed modulo the number of values of the index type: a grid of 65536 times 65536 variables with 32 bit indices has no variables.
* `C82_violated_isSimple` (Spaces.lean): C82 is violated by isSimpleSpace: for a DiscreteSpace without variables it reads the number of labels of the first variable (undefined behaviour); and since this number is stored with the type of an index, with 16 bit indices and 32 bit labels two variables with 65537 labels are reported as different, and variables with 65537 and 1 labels as equal.
* `C82_violated_simple` (Spaces.lean): C82 is violated by SimpleDiscreteSpace: assignDense reads the first element of an empty range (undefined behaviour), for every object; and when it throws because the numbers of labels are not equal, the space has changed: it shows as many variables as there are numbers, all with the first number of labels.
* `C82_violated_views` (Spaces.lean): C82 is violated by views: the default constructors leave a null pointer, which every question dereferences; ViewSpace::addVariable makes an exception object without throwing it and then reaches the end of a function that must return a value (undefined behaviour).
* `C83_violated_grow` (SingleSite.lean): C83, dynamic functions, violated: a function of size zero has no valid pointer, and giving it a size (by `operator=` from a function that is not empty, by `assign(n)` or by `assign(n, v)`) deletes that pointer: in every program the first such operation has undefined behaviour. The smallest program is `f(); f.assign(1)`; after `f(1); f.assign(0); f.assign(1)` the same block is deleted twice.
* `C83_violated_serialize` (SingleSite.lean): C83, dynamic functions, serialization, violated: `serialize` never writes the size into the index sequence, although it reserves one entry for it. Read back from a sequence that was zero, as a file buffer is, every function is empty; and if the entry did hold the size, reading into a fresh object would delete a pointer that was never set.
* `C84_violated_default` (FieldOfExperts.lean): C84, violated: setDefault stores the matrix of filters column by column, but operator() reads it row by row, as the constructors document. So the filters of the default function are not the ones written in the code: each of those gives almost zero on the labels 1, 1, 1, 1 (at most 0.00005), the ones used 0.08, -0.19 and 0.11.
* `C84_violated_noExperts` (FieldOfExperts.lean): C84, violated: a function without experts (its value is 0) can be made and written, but reading it back divides by zero, and so does its construction from vectors.
* `C85_violated_default` (Views.lean): C85, violated: the default constructors of ViewFunction, ViewConvertFunction and AccumulatedViewFunction make objects of which the shape (and for the first two the value) is undefined in every model.
* `C85_violated_temperature` (Views.lean): C85, violated: with the operator Multiplier the inverse temperature is ignored, for every model, factor and temperature, so a model with temperature is not the power of the original one: a factor with value 3 viewed with inverse temperature 2 is 3, not 9.
* `C86_violated_copy` (ExplicitModel.lean): C86 is violated: a copy of a storage shares the block with the original (the class declares no copy constructor), so destroying both deletes the block twice.
* `C86_violated_types` (ExplicitModel.lean): C86 is violated: for a model with two functions of its first type and one function of its second type (all with at least one argument, built by valid calls), the conversion orders function identifiers in a `std::map` by `operator<`, which is no strict weak order on these identifiers: the identifiers (1, type 0) and (0, type 1) are each less than the other one. The behaviour is undefined; a lookup may miss its key and give the factor the first function of the new model.
* `C87_violated_parallel` (PartitionMove.lean): C87 is violated if two factors have the same two variables: the constructor counts an edge for each of them, but the neighbour lists keep only the last one, so the weight of the other one is not seen. For the triangle with weights 1, 1, 100 and -5 (the last two for the same variables), infer() goes from a labeling with energy 3 to a labeling with energy 99.
* `C88_violated_visitor` (Sat.lean): C88 is violated for a visitor that prints the value when inference begins, as the verbose and the timing visitors do: value() reads the component vector, which is empty until the first infer() has ended, so for every model with a variable both value() before infer() and infer(visitor) read outside that vector.
* `C89_violated_nodes` (ModelTrees.lean): C89 is violated by nodes() if the vector given is not empty: it is resized but not cleared, so a second call with the same vector lists every variable twice (roots() overwrites the vector).
* `C91_violated_multiplier` (CanonicalView.lean): C91 is violated: in a model with the Multiplier as operation, a variable without unary factor gets a constant factor with value 0 in the canonical view, so that every labeling has the value 0 in the view, whatever its value in the model is (here 3).
* `C91_violated_types` (CanonicalView.lean): C91 is violated: for a model with two functions of its first type and one function of its second type, each used by one factor, the construction of the canonical view looks function identifiers up in a `std::map` ordered by `operator<`, which is no strict weak order on these identifiers: the behaviour is undefined.
* `C92_violated_check` (PrimalBound.lean): C92 is violated: the check that a factor has two variables constructs an exception without throwing it; getFactorValue for a factor of one variable is undefined.
* `C92_violated_dangling` (PrimalBound.lean): C92 is violated: getFactorValue passes a temporary object to `Init` of the solver, which stores its address; `Solve` reads from this address after the object was destroyed. So, by the rules of the language, the first getFactorValue for any factor of two variables is undefined, for every model.
* `C92_violated_other` (PrimalBound.lean): C92 is violated: if the value of a factor is buffered, getFactorVariable does not run the solver and returns the solution of the factor for which the solver was used last. After getFactorValue(1) and getFactorValue(3), getFactorVariable(1) returns the solution of factor 3.
* `C92_violated_stale` (PrimalBound.lean): C92 is violated: getFactorVariable asks whether the solver was used for this factor last, but setVariable does not reset this. After getFactorVariable(1), setVariable(0, ...), a second getFactorVariable(1) returns the solution for the old weights of variable 0 (here [0, 0] instead of [1, 2]).
* `C92_violated_throw` (PrimalBound.lean): C92 is violated: for a model with a factor of three variables getTotalValue throws, but the sum of the factors before it is left as buffered value: the next call of getTotalValue returns this sum (here 6) instead of throwing.
* `C93_violated_const` (Iterators.lean): C93 is violated: `operator*` and `operator[]` of a const AccessorIterator return references, but the accessors of the library return values: the reference refers to an object that is gone.
* `C93_violated_difference` (Iterators.lean): C93 is violated: the difference of an iterator and a later one is not negative: the type of differences is size_t. For positions `a < b` the result is 2^64 - (b - a).
* `C93_violated_variables` (Iterators.lean): C93 is violated: the operator[] of FactorVariablesAccessor that is not const returns numbers of labels: iterating over the variables of a factor gives the numbers of labels of its variables, for every model and factor.
* `C94_violated_constant` (DMC.lean): C94 is violated for models with a constant factor, which other solvers for partition problems accept (C87): infer() throws.
* `C94_violated_labels` (DMC.lean): C94 is violated for models with fewer labels than variables: they are not rejected, and the labels found do not exist (infer() goes on to evaluate the model there, which is undefined).
* `C94_violated_other` (DMC.lean): C94 is violated for factors that are not of the Potts form: they are not rejected; only their values for the labels (0, 0) and (0, 1) are read. For a factor that is -7 for the labels (1, 1) and 0 otherwise, the energy of the labels found is 0.
* `C94_violated_pair` (DMC.lean): C94 is violated if factors have the same variables: the two variables of a component of two variables get the same label without looking at the total weight. For factors of weights 1 and -5 for the same variables (and one of weight -2 for two other variables), the energy of the labels found is -2, and there is a labeling with energy -6, for every solver of the subproblems.
* `C94_violated_value` (DMC.lean): C94 is violated by value(): it is 0 for every result (its body was never written), for the labels above instead of -2.
* `C95_violated_constant` (MergeFactors.lean): C95 is violated for constant factors: they are dropped, and the merged model has another value for every labeling.
* `C95_violated_key` (MergeFactors.lean): C95 is violated for large models with an index type of 32 bits: different pairs of variables get the same key, so that their factors become one.
* `C95_violated_multiplier` (MergeFactors.lean): C95 is violated for models whose operation is not addition: the values of merged factors are added nevertheless. For a variable with two factors of the values 2 and 3 and the multiplication as operation, the merged model has the value 5 instead of 6.
* `C97_violated_single` (PermutableFusion.lean): C97, what is missing: when all variables are connected by terms that neither partition separates, `fuse` returns without writing the result or its value, whatever they held before.
* `C97_violated_unary` (PermutableFusion.lean): C97, what is missing: a model with a factor of one variable, which `intersect` accepts, is rejected by `fuse` when the intersection has more than one part.
* `violated_le` (LinearConstraint.lean): The amount by which the constraint of the function is missed.
