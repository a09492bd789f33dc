{"id": "C01", "title": "OneMax incremental evaluation equals full evaluation", "statement": "Evaluating a one-bit-flip or k-bit-flip neighbour of a bit string incrementally gives exactly the fitness that full evaluation gives to the moved solution.", "quantifier": "all bit strings, all bit indices (or all duplicate-free sets of indices)", "why_tests_cant": "infinitely many inputs; a test samples a few", "anchors": ["mo/src/problems/eval/moOneMaxIncrEval.h operator()", "mo/src/problems/eval/moOneMaxBitsIncrEval.h operator()", "problems/eval/oneMaxEval.h"]}
{"id": "C02", "title": "QAP incremental evaluation equals full evaluation", "statement": "For a swap neighbour of a permutation, incremental evaluation equals full evaluation of the swapped permutation, for arbitrary (also asymmetric, non-zero diagonal) flow and distance matrices.", "quantifier": "all instance sizes, all integer matrices, all permutations, all pairs of positions", "why_tests_cant": "quadratic formula over unbounded instances; tests use one symmetric instance", "anchors": ["mo/src/problems/eval/moQAPIncrEval.h operator()", "problems/eval/qapEval.h operator()"]}
{"id": "C03", "title": "UBQP incremental evaluation equals full evaluation", "statement": "For a one-bit flip of a binary vector the incremental quadratic evaluation equals full evaluation of the flipped vector.", "quantifier": "all sizes, all lower-triangular matrices, all bit vectors, all indices", "why_tests_cant": "infinitely many inputs; a test samples a few", "anchors": ["mo/src/problems/eval/moUBQPSimpleIncrEval.h operator()", "problems/eval/ubqpEval.h operator()"]}
{"id": "C04", "title": "UBQP double-incremental table stays exact along any walk", "statement": "After any sequence of accepted moves the per-bit delta table kept by the double incremental evaluation equals, for every bit, full(flipped) - full(current); so every neighbour fitness returned is exact.", "quantifier": "all matrices, all start vectors, all finite sequences of moves", "why_tests_cant": "history-dependent state; an error appears only after particular move sequences", "anchors": ["mo/src/problems/eval/moUBQPdoubleIncrEvaluation.h operator()"]}
{"id": "C05", "title": "MaxSAT incremental evaluation equals full evaluation exactly when no lost literal sign matters", "statement": "For clauses without repeated literals: with the occurrence table built for a random instance, the incremental evaluation of a flip equals full evaluation exactly if the first clause contains the variable as a positive literal or keeps its truth value; with the table built from a file, exactly if as many of the clauses in which the variable is not a positive literal are satisfied after the flip as before. So it is always right when no sign is lost (random: the first clause has no negated occurrence; file: no clause has), and both kinds of table give wrong values for some instance.", "quantifier": "all clause sets, all assignments, all variables", "why_tests_cant": "an instance-dependent bug: tests with positive literals pass", "anchors": ["mo/src/problems/eval/moMaxSATincrEval.h operator()", "problems/eval/maxSATeval.h MaxSATeval::MaxSATeval, clauseEval"]}
{"id": "C06", "title": "NK-landscape incremental evaluation equals full evaluation", "statement": "For a bit flip, the incremental NK evaluation equals the full evaluation of the flipped string.", "quantifier": "all N, all link structures (each locus's links contain the locus or not), all contribution tables, all strings", "why_tests_cant": "infinitely many inputs; a test samples a few", "anchors": ["mo/src/problems/eval/moNKlandscapesIncrEval.h operator()", "problems/eval/nkLandscapesEval.h operator(), sigma"]}
{"id": "C07", "title": "Royal-road incremental evaluation equals full evaluation except for the last bits of an incomplete block", "statement": "For a flip of a bit in a complete block, incremental evaluation equals full evaluation of the flipped string. For a bit in a trailing incomplete block it does so exactly if another bit of that block is 0; otherwise the code reads past the end of the string.", "quantifier": "all strings, block sizes and bit indices", "why_tests_cant": "needs lengths not multiple of the block size, which tests do not use", "anchors": ["mo/src/problems/eval/moRoyalRoadIncrEval.h operator()", "problems/eval/royalRoadEval.h operator()"]}
{"id": "C08", "title": "Generic neighbour evaluation leaves the solution unchanged and is exact", "statement": "Evaluating a neighbour by copy, or by modify/evaluate/undo, returns the full evaluation of the moved solution, and leaves the solution and its fitness exactly as before whenever the neighbour's moveBack undoes its move.", "quantifier": "all solutions, neighbours and evaluation functions", "why_tests_cant": "quantifies over user-supplied evaluators and neighbours", "anchors": ["mo/src/eval/moFullEvalByCopy.h operator()", "mo/src/eval/moFullEvalByModif.h operator()"]}
{"id": "C09", "title": "Ordered indexed neighbourhood enumerates each neighbour exactly once", "statement": "init followed by next while cont visits keys 0..n-1 in order, each exactly once, and stops; for a size-0 neighbourhood guarded by hasNeighbor nothing is visited.", "quantifier": "all neighbourhood sizes", "why_tests_cant": "infinitely many inputs; a test samples a few", "anchors": ["mo/src/neighborhood/moOrderNeighborhood.h init/next/cont"]}
{"id": "C10", "title": "Random-without-replacement neighbourhood enumerates each neighbour exactly once", "statement": "Whatever the random generator returns, one exploration visits every key exactly once.", "quantifier": "all sizes, all random streams, all starting permutations left by earlier explorations", "why_tests_cant": "quantifies over the random stream and the history of earlier partial explorations", "anchors": ["mo/src/neighborhood/moRndWithoutReplNeighborhood.h init/next/cont"]}
{"id": "C11", "title": "Random-with-replacement neighbourhood draws exactly the requested number of in-range keys", "statement": "With a positive maximum number of neighbours m, one exploration yields exactly m neighbours, all with key in range; with the default maximum 0 the exploration never ends by itself.", "quantifier": "all sizes, bounds and random streams", "why_tests_cant": "random stream; non-termination cannot be tested", "anchors": ["mo/src/neighborhood/moRndWithReplNeighborhood.h"]}
{"id": "C12", "title": "Swap neighbourhood enumerates every unordered pair of positions exactly once", "statement": "init/next/cont of the swap (and 2-opt) neighbourhood yields each pair i<j of positions exactly once, and never reads outside the solution, for every size at least 2.", "quantifier": "all permutation sizes", "why_tests_cant": "infinitely many inputs; a test samples a few", "anchors": ["mo/src/problems/permutation/moSwapNeighborhood.h", "mo/src/problems/permutation/moTwoOptExNeighborhood.h"]}
{"id": "C13", "title": "Indexed swap neighbour decodes keys bijectively", "statement": "Keys 0..n(n-1)/2-1 decode to each pair first<second<n exactly once, and set(first,second) is the inverse of index(key).", "quantifier": "all sizes and keys (floating square root taken exactly)", "why_tests_cant": "infinitely many inputs; a test samples a few", "anchors": ["mo/src/problems/permutation/moIndexedSwapNeighbor.h index, set"]}
{"id": "C14", "title": "Shift neighbour decodes keys bijectively onto effective insertions", "statement": "Keys 0..n(n-1)-1 decode to each (first,second) with second outside {first,first+1} exactly once, and set inverts index.", "quantifier": "all sizes and keys", "why_tests_cant": "infinitely many inputs; a test samples a few", "anchors": ["mo/src/problems/permutation/moShiftNeighbor.h index, set"]}
{"id": "C15", "title": "Permutation moves are permutations and moveBack undoes move", "statement": "Swap, indexed swap, shift and 2-opt moves only rearrange the solution, and moveBack after move restores it exactly.", "quantifier": "all solutions, all legal parameters", "why_tests_cant": "infinitely many inputs; a test samples a few", "anchors": ["mo/src/problems/permutation/moSwapNeighbor.h", "mo/src/problems/permutation/moShiftNeighbor.h", "mo/src/problems/permutation/moTwoOptExNeighbor.h", "mo/src/problems/permutation/moIndexedSwapNeighbor.h"]}
{"id": "C16", "title": "Bit-flip moves touch exactly the chosen bits and are involutive", "statement": "Applying a one-bit or k-bit neighbour flips exactly the selected bits (distinct), and applying it twice restores the string.", "quantifier": "all strings, all index lists", "why_tests_cant": "infinitely many inputs; a test samples a few", "anchors": ["mo/src/problems/bitString/moBitNeighbor.h", "mo/src/problems/bitString/moBitsNeighbor.h"]}
{"id": "C17", "title": "k-bit neighbourhood without replacement samples distinct in-range keys", "statement": "Exploration yields exactly sampleSize distinct keys, all smaller than the neighbourhood size.", "quantifier": "all sizes, sample sizes, random streams", "why_tests_cant": "random stream", "anchors": ["mo/src/problems/bitString/moBitsWithoutReplNeighborhood.h init/next/cont"]}
{"id": "C18", "title": "Steepest hill climbing selects a best neighbour", "statement": "One exploration of the simple hill climber selects a neighbour at least as good as every neighbour, the first such one in enumeration order, and applies it only if strictly better than the current solution.", "quantifier": "all neighbourhoods (any finite list of neighbours), all fitness assignments", "why_tests_cant": "infinitely many inputs; a test samples a few", "anchors": ["mo/src/explorer/moSimpleHCexplorer.h"]}
{"id": "C19", "title": "Hill climbers never worsen and stop only at local optima", "statement": "Along any run of the simple, first-improvement and random-best hill climbers the fitness sequence is strictly increasing until the end, and when the search stops by itself the final solution has no strictly better neighbour.", "quantifier": "all neighbourhood structures, fitness functions, random streams, start solutions", "why_tests_cant": "all executions of an iterative search", "anchors": ["mo/src/algo/moLocalSearch.h operator()", "mo/src/explorer/moSimpleHCexplorer.h", "mo/src/explorer/moFirstImprHCexplorer.h", "mo/src/explorer/moRandomBestHCexplorer.h"]}
{"id": "C20", "title": "Neutral hill climbing never worsens", "statement": "Along any neutral hill-climbing run the fitness never decreases.", "quantifier": "all neighbourhoods, random streams and step bounds", "why_tests_cant": "all executions", "anchors": ["mo/src/explorer/moNeutralHCexplorer.h"]}
{"id": "C21", "title": "Tabu search returns the best solution visited", "statement": "Whatever tabu list, aspiration, continuator and random choices, the solution left by tabu search is one of the visited solutions and at least as good as every visited one, including the initial.", "quantifier": "all executions", "why_tests_cant": "history property over executions", "anchors": ["mo/src/explorer/moTSexplorer.h", "mo/src/algo/moLocalSearch.h"]}
{"id": "C22", "title": "Tabu search never applies a tabu, non-aspirated move", "statement": "Every applied move is non-tabu or aspirated, and it is at least as good as every other allowed neighbour.", "quantifier": "all tabu predicates, aspirations, neighbourhoods", "why_tests_cant": "quantifies over arbitrary memories", "anchors": ["mo/src/explorer/moTSexplorer.h operator()"]}
{"id": "C23", "title": "Indexed tabu list tenure", "statement": "A neighbour key added with tenure h is tabu exactly until h updates have happened (unless re-added); the tabu check reads only recorded keys.", "quantifier": "all interleavings of add and update", "why_tests_cant": "history", "anchors": ["mo/src/memory/moIndexedVectorTabuList.h"]}
{"id": "C24", "title": "Neighbour and solution tabu lists hold exactly the last maxSize additions", "statement": "With unlimited tenure an element is tabu iff it was among the last maxSize added; with tenure h additionally it is forgotten after h updates.", "quantifier": "all histories", "why_tests_cant": "history", "anchors": ["mo/src/memory/moNeighborVectorTabuList.h", "mo/src/memory/moSolVectorTabuList.h"]}
{"id": "C25", "title": "Simulated annealing acceptance and geometric cooling", "statement": "At a temperature other than zero a strictly better or equal neighbour is always accepted; a worse one iff the random draw is below the Boltzmann probability; at temperature zero exactly the better ones are accepted; the geometric schedule lowers the temperature by alpha every span+1 steps, so with 0<alpha<1 the search reaches the final temperature after finitely many steps.", "quantifier": "all draws, temperatures and histories", "why_tests_cant": "termination over an unbounded run", "anchors": ["mo/src/explorer/moSAexplorer.h", "mo/src/coolingSchedule/moSimpleCoolingSchedule.h"]}
{"id": "C26", "title": "Combined continuator is conjunction and keeps every component in step", "statement": "A combined continuator says continue iff all components do, and evaluates each component exactly once per step (none is short-circuited).", "quantifier": "all component lists and histories", "why_tests_cant": "history-dependent components", "anchors": ["mo/src/continuator/moCombinedContinuator.h"]}
{"id": "C27", "title": "Iteration continuator bounds the number of iterations", "statement": "A local search with an iteration bound m performs at most max(1,m) iterations, exactly that many if the explorer never stops by itself.", "quantifier": "all explorers and solutions", "why_tests_cant": "executions", "anchors": ["mo/src/continuator/moIterContinuator.h", "mo/src/algo/moLocalSearch.h"]}
{"id": "C28", "title": "Variable neighbourhood order", "statement": "The forward (backward) selection visits the search operators in increasing (decreasing) order, and with cycling in round-robin; without cycling it stops after the last. With a single operator and no cycling the stop test underflows and never stops.", "quantifier": "all vector sizes", "why_tests_cant": "edge size", "anchors": ["mo/src/neighborhood/moForwardVectorVNSelection.h", "mo/src/neighborhood/moBackwardVectorVNSelection.h"]}
{"id": "C29", "title": "VNS never returns to the first neighbourhood", "statement": "After an improvement a variable neighbourhood search is documented to restart from the first neighbourhood; the code never does, in any execution.", "quantifier": "all executions", "why_tests_cant": "negative property over all executions", "anchors": ["mo/src/explorer/moVNSexplorer.h"]}
{"id": "C30", "title": "Neighbourhood statistics partition the neighbourhood", "statement": "The counts of better, equal and worse neighbours sum to the neighbourhood size, min and max are the extreme fitness values and are attained.", "quantifier": "all neighbourhoods and solutions", "why_tests_cant": "infinitely many inputs; a test samples a few", "anchors": ["mo/src/continuator/moNeighborhoodStat.h"]}
{"id": "C31", "title": "Pareto dominance is a strict partial order", "statement": "With zero tolerance Pareto dominance is irreflexive, asymmetric and transitive for any mix of minimised and maximised objectives and equals the textbook definition; with a positive tolerance (the library uses 1e-10) transitivity fails.", "quantifier": "all objective vectors and directions", "why_tests_cant": "algebraic law over reals; the failure needs chains of near-ties", "anchors": ["moeo/src/comparator/moeoParetoObjectiveVectorComparator.h", "moeo/src/core/moeoObjectiveVectorTraits.h tolerance"]}
{"id": "C32", "title": "Comparator hierarchy", "statement": "Pareto dominance implies weak dominance; strict dominance implies Pareto dominance when the tolerance is positive and no difference is exactly the tolerance (at the boundary, or with tolerance 0, the implication fails); the lexicographic comparator is a strict weak order compatible with Pareto dominance for minimisation; fitness-then-diversity is a strict weak order.", "quantifier": "all objective vectors", "why_tests_cant": "infinitely many inputs; a test samples a few", "anchors": ["moeo/src/comparator/moeoParetoObjectiveVectorComparator.h"]}
{"id": "C33", "title": "Unbounded archive equals the non-dominated set of everything ever submitted", "statement": "After any sequence of submissions the archive's members are mutually non-dominating, have distinct objective vectors, and their objective vectors are exactly the non-dominated vectors among all submitted; hence the content (as a set of vectors) does not depend on submission order.", "quantifier": "all submission histories (zero tolerance)", "why_tests_cant": "history and order", "anchors": ["moeo/src/archive/moeoArchive.h operator()", "moeo/src/archive/moeoUnboundedArchive.h"]}
{"id": "C34", "title": "Archive update reports exactly whether the newcomer was kept", "statement": "The boolean returned for a solution is true iff it is a member afterwards through this insertion, i.e. iff no member dominates or equals it; rejected solutions leave the archive unchanged as a set.", "quantifier": "all archives and solutions", "why_tests_cant": "history", "anchors": ["moeo/src/archive/moeoArchive.h operator()"]}
{"id": "C35", "title": "Archives without replacement tolerate intransitive comparators only partly", "statement": "With positive tolerance the archive may depend on order and may drop a solution no submitted solution dominates in the final archive.", "quantifier": "existence of a history", "why_tests_cant": "needs near ties", "anchors": ["moeo/src/archive/moeoArchive.h"]}
{"id": "C36", "title": "Bounded archives never exceed their bound and stay non-dominated", "statement": "After any sequence of submissions an improvement-only or fitness/diversity bounded archive has at most maxSize members, mutually non-dominating, all of them submitted.", "quantifier": "all histories", "why_tests_cant": "history", "anchors": ["moeo/src/archive/moeoImprOnlyBoundedArchive.h", "moeo/src/archive/moeoFitDivBoundedArchive.h"]}
{"id": "C37", "title": "Improvement-only archive only improves", "statement": "Each member ever removed from an improvement-only bounded archive is dominated by (or equal to) the solution that replaced it; the region dominated by the archive never shrinks.", "quantifier": "all histories", "why_tests_cant": "history", "anchors": ["moeo/src/archive/moeoImprOnlyBoundedArchive.h"]}
{"id": "C38", "title": "Dominance-depth ranks are the Pareto fronts (general case)", "statement": "For more than two objectives the rank given to each solution is exactly one plus the length of the longest chain of solutions dominating it; every solution gets a rank; the loop terminates.", "quantifier": "all populations, any strict partial order comparator", "why_tests_cant": "loop over unbounded population", "anchors": ["moeo/src/fitness/moeoDominanceDepthFitnessAssignment.h mObjectives"]}
{"id": "C39", "title": "Dominance-depth ranks in two objectives", "statement": "With both objectives minimised (or both maximised) and pairwise different vectors the fast two-objective ranking agrees with the general one; it disagrees when vectors are repeated, and when one objective is minimised and the other maximised.", "quantifier": "all populations", "why_tests_cant": "needs ties; tests use generic points", "anchors": ["moeo/src/fitness/moeoDominanceDepthFitnessAssignment.h twoObjectives"]}
{"id": "C40", "title": "Dominance count and rank matrices", "statement": "The dominance matrix's count and rank vectors equal the number of dominated and dominating solutions; with duplicate marking enabled, a second use of the same object on another population uses stale duplicate marks.", "quantifier": "all populations, all sequences of uses", "why_tests_cant": "history", "anchors": ["moeo/src/utils/moeoDominanceMatrix.h"]}
{"id": "C41", "title": "Indicator-based fitness stays exact under deletions", "statement": "After environmental selection removes individuals one by one, the fitness of each survivor equals the one computed from scratch on the survivors with the same bounds.", "quantifier": "all populations, indicator functions and numbers of deletions", "why_tests_cant": "history", "anchors": ["moeo/src/fitness/moeoExpBinaryIndicatorBasedFitnessAssignment.h", "moeo/src/replacement/moeoEnvironmentalReplacement.h"]}
{"id": "C42", "title": "Elitist multi-objective replacement keeps the best", "statement": "The next parents are exactly sz individuals of the merged population such that no discarded individual is better (fitness, then diversity) than a kept one; the population size is preserved.", "quantifier": "all populations, fitness and diversity assignments, all sorting algorithms", "why_tests_cant": "infinitely many inputs; a test samples a few", "anchors": ["moeo/src/replacement/moeoElitistReplacement.h"]}
{"id": "C43", "title": "Additive epsilon indicator characterises weak dominance", "statement": "The binary epsilon value of two vectors is at most zero iff the first weakly dominates the second; of two sets, iff every vector of the second is weakly dominated by one of the first; it satisfies the triangle inequality; positive ranges assumed.", "quantifier": "all vectors and sets", "why_tests_cant": "infinitely many inputs; a test samples a few", "anchors": ["moeo/src/metric/moeoAdditiveEpsilonBinaryMetric.h", "moeo/src/metric/moeoVecVsVecEpsilonBinaryMetric.h"]}
{"id": "C44", "title": "Contribution metric is balanced", "statement": "Contribution(A,B)+Contribution(B,A)=1 for duplicate-free sets not both empty of counted points; each lies in [0,1].", "quantifier": "all pairs of sets", "why_tests_cant": "infinitely many inputs; a test samples a few", "anchors": ["moeo/src/metric/moeoContributionMetric.h"]}
{"id": "C45", "title": "Hypervolume metric equals the volume dominated", "statement": "The hypervolume returned for a set of points that dominate the reference point is the volume of the union of the boxes between the points and the reference point, in any number of objectives.", "quantifier": "all finite point sets, all dimensions", "why_tests_cant": "infinitely many inputs; a test samples a few", "anchors": ["moeo/src/metric/moeoHyperVolumeMetric.h calc_hypervolume"]}
{"id": "C46", "title": "Crowding distance marks extremes and is invariant", "statement": "In every front of more than two individuals the extremes on each objective get infinite diversity, interior ones the normalised sum of gaps to their sorted neighbours, and fronts of one or two get infinite diversity; permuting the population permutes the values when objective values are distinct.", "quantifier": "all populations", "why_tests_cant": "infinitely many inputs; a test samples a few", "anchors": ["moeo/src/diversity/moeoFrontByFrontCrowdingDiversityAssignment.h"]}
{"id": "C47", "title": "Fitness validity protocol", "statement": "Reading a fitness raises an exception iff the last event on the individual among assignment and invalidation was an invalidation (or none happened); a value read is the last one assigned.", "quantifier": "all histories", "why_tests_cant": "history", "anchors": ["eo/src/EO.h fitness, invalidate"]}
{"id": "C48", "title": "Truncation replacement keeps the best", "statement": "(mu+lambda) and (mu,lambda) replacement produce exactly mu individuals, a sub-multiset of the candidates, none of the discarded better than any kept; best fitness never decreases for plus.", "quantifier": "all populations and any selection algorithm allowed by the standard library", "why_tests_cant": "infinitely many inputs; a test samples a few", "anchors": ["eo/src/eoMergeReduce.h", "eo/src/eoReduce.h eoTruncate", "eo/src/eoMerge.h eoPlus"]}
{"id": "C49", "title": "Weak elitism never loses the best", "statement": "With weak elitism around any size-preserving replacement, population size is preserved and the best fitness after replacement is at least the best parent's.", "quantifier": "all populations and inner replacements", "why_tests_cant": "quantifies over user-supplied replacement", "anchors": ["eo/src/eoReplacement.h eoWeakElitistReplacement"]}
{"id": "C50", "title": "Every reducer returns exactly the requested size as a sub-multiset", "statement": "Truncate, random, EP tournament, linear, deterministic and stochastic tournament reducers return exactly newsize individuals all taken from the input, or throw if newsize exceeds the size.", "quantifier": "all populations, sizes and random streams", "why_tests_cant": "random stream", "anchors": ["eo/src/eoReduce.h"]}
{"id": "C51", "title": "Linear truncation equals sort truncation", "statement": "Removing the worst repeatedly keeps the same multiset of fitnesses as sorting and cutting.", "quantifier": "all populations", "why_tests_cant": "infinitely many inputs; a test samples a few", "anchors": ["eo/src/eoReduce.h eoLinearTruncate, eoTruncate"]}
{"id": "C52", "title": "Elitism merge copies the requested number of best parents", "statement": "The elitism merge is documented to add the given number (or rate) of best parents to the offspring; with a positive number it adds all the parents, in every case.", "quantifier": "all populations and counts", "why_tests_cant": "the offspring are usually truncated afterwards, hiding it", "anchors": ["eo/src/eoMerge.h eoElitism"]}
{"id": "C53", "title": "Deterministic tournament returns a best of its draws", "statement": "The individual returned is one of the drawn ones and at least as good as all the drawn; with t draws it beats at least the t distinct drawn ones; the inverse tournament dually.", "quantifier": "all populations, tournament sizes and random streams", "why_tests_cant": "random stream", "anchors": ["eo/src/utils/selectors.h deterministic_tournament, inverse_deterministic_tournament"]}
{"id": "C54", "title": "Roulette wheel selects only individuals of positive weight with the right intervals", "statement": "For non-negative weights with positive sum and a draw in (0,total], the selected index i satisfies sum(w[0..i)) < draw <= sum(w[0..i]), so zero-weight individuals are never selected and index is in range; the generator's variant returns an out-of-range index if all the weights are zero.", "quantifier": "all weight vectors and draws", "why_tests_cant": "floating-point-free exact statement over all draws", "anchors": ["eo/src/utils/selectors.h roulette_wheel", "eo/src/utils/eoRNG.h roulette_wheel"]}
{"id": "C55", "title": "How-many arithmetic", "statement": "The number computed for a rate, an absolute or a complementary count lies within the population size when the parameters are legal and errors are raised otherwise.", "quantifier": "all sizes and rates", "why_tests_cant": "infinitely many inputs; a test samples a few", "anchors": ["eo/src/utils/eoHowMany.h"]}
{"id": "C56", "title": "Permutation operators preserve permutations", "statement": "Order crossover, PMX, shift, swap and two-opt mutations turn permutations of 0..n-1 into permutations of 0..n-1.", "quantifier": "all permutations, cut points and random streams", "why_tests_cant": "random stream; factorially many inputs", "anchors": ["eo/src/eoOrderXover.h", "eo/src/eoPartiallyMappedXover.h", "eo/src/eoShiftMutation.h", "eo/src/eoSwapMutation.h", "eo/src/eoTwoOptMutation.h"]}
{"id": "C57", "title": "Order crossover: inherited segment, then the order of the other parent", "statement": "The child of order crossover begins with the chosen segment of the first parent, followed by all the remaining values in the cyclic order (in the drawn direction) of the second parent, from the place of the last value of the segment on. (The segment is moved to the front of the child: its positions are not kept, unlike in the textbook operator.)", "quantifier": "all parents and cut points", "why_tests_cant": "random stream", "anchors": ["eo/src/eoOrderXover.h cross"]}
{"id": "C58", "title": "Bit-string crossovers conserve genes position by position", "statement": "One-point, n-point, uniform and gene-wise crossovers produce two children such that at each position the pair of child genes equals the pair of parent genes up to swapping; lengths are preserved.", "quantifier": "all parents, cut points, random streams", "why_tests_cant": "random stream", "anchors": ["eo/src/ga/eoBitOp.h"]}
{"id": "C59", "title": "Deterministic bit flip flips exactly k distinct bits", "statement": "The single-flip-k mutation changes exactly k distinct positions for k at most the length.", "quantifier": "all strings and random streams", "why_tests_cant": "random stream", "anchors": ["eo/src/ga/eoBitOp.h eoDetSingleBitFlip"]}
{"id": "C60", "title": "Gray-free successor/predecessor mutations are inverse", "statement": "Bit-next increments the number coded by the string modulo 2^n and bit-prev decrements it; they are mutually inverse.", "quantifier": "all bit strings", "why_tests_cant": "infinitely many inputs; a test samples a few", "anchors": ["eo/src/ga/eoBitOp.h eoBitNext, eoBitPrev"]}
{"id": "C61", "title": "Bounds folding and truncation stay within bounds and fix in-bounds values", "statement": "Truncation yields the nearest in-bounds value; folding yields an in-bounds value and is the identity on in-bounds values; for non-degenerate intervals and moderate arguments.", "quantifier": "all intervals and values", "why_tests_cant": "infinitely many inputs; a test samples a few", "anchors": ["eo/src/utils/eoRealBounds.h eoRealInterval", "eo/src/utils/eoIntBounds.h"]}
{"id": "C62", "title": "Binary partition swaps enumerate every (in,out) pair and keep the partition", "statement": "With both sides non-empty, one exploration of the partition swap neighbourhood uses every pair (rejected atom, selected atom) exactly once without reading outside the sets; each swap keeps a partition of the same atoms with the same number of selected atoms, and moveBack restores it. (With nothing selected, hasNeighbor says yes and the exploration reads past the end.)", "quantifier": "all partitions and swaps", "why_tests_cant": "infinitely many inputs; a test samples a few", "anchors": ["mo/src/problems/partition/moBinaryPartition.h", "mo/src/problems/partition/moBinaryPartitionSwapNeighbor.h", "mo/src/problems/partition/moBinaryPartitionSwapNeighborhood.h"]}
{"id": "C63", "title": "k-bit neighbourhood lists every set of d positions exactly once", "statement": "The neighbours stored for Hamming distance d are exactly the d-subsets of the positions, each once, and their number equals the announced binomial coefficient.", "quantifier": "all lengths and distances 1..length", "why_tests_cant": "combinatorial family", "anchors": ["mo/src/problems/bitString/moBitsWithoutReplNeighborhood.h constructor", "mo/src/problems/bitString/moBitsNeighborhood.h numberOfNeighbors"]}
{"id": "C64", "title": "k-bit neighbourhood with replacement draws distinct positions", "statement": "Each neighbour drawn at a fixed distance has that many distinct in-range positions, whatever the random stream and the previous draws. (With a variable distance the choice of the distance is inverted: it is 1 or the size table is read past its end.)", "quantifier": "all lengths, distances, streams", "why_tests_cant": "random stream; undefined behaviour not observable by tests", "anchors": ["mo/src/problems/bitString/moBitsWithReplNeighborhood.h randomNeighbor"]}
{"id": "C65", "title": "Metropolis-Hastings acceptance", "statement": "For positive fitness values a Metropolis-Hastings step accepts a neighbour at least as good always and a worse one iff the draw is below the ratio worse/better. (At fitness 0 the code accepts only worse neighbours, and with negative values it accepts every worse neighbour.)", "quantifier": "all fitness values and draws", "why_tests_cant": "random draws; special values", "anchors": ["mo/src/explorer/moMetropolisHastingExplorer.h accept"]}
{"id": "C66", "title": "Checkpoint statistics are computed at the announced interval exactly with one statistic", "statement": "A local-search checkpoint with interval k computes each statistic at exactly every k-th call if and only if it has at most one statistic or k is 1: the counter advances once per statistic, so statistic j of n is computed at call c (from 0) exactly if k divides 1 + c n + j. With two statistics and k = 2 the first is never computed.", "quantifier": "all intervals, numbers of statistics and call numbers", "why_tests_cant": "unbounded histories", "anchors": ["mo/src/continuator/moCheckpoint.h operator()"]}
{"id": "C67", "title": "Dynamic-span cooling stops exactly frozen searches", "statement": "The dynamic-span schedule says stop only if the last (nbSpanMax+1)*spanTriesMax moves were all rejected, and always after (nbSpanMax+2)*spanTriesMax rejections in a row.", "quantifier": "all histories of accepted and rejected moves", "why_tests_cant": "unbounded histories", "anchors": ["mo/src/coolingSchedule/moDynSpanCoolingSchedule.h"]}
{"id": "C68", "title": "What an over-full fitness/diversity archive keeps", "statement": "When the bounded fitness/diversity archive is over-full it keeps the first solutions in the order of the comparator given. (With the library's comparators, for which a smaller individual is a worse one, these are the worst: the best are discarded, unlike in the replacements which reverse the comparator.)", "quantifier": "all archives, bounds and fitness/diversity values", "why_tests_cant": "infinitely many inputs; a test samples a few", "anchors": ["moeo/src/archive/moeoFitDivBoundedArchive.h operator()"]}
{"id": "C69", "title": "g-dominance is a strict partial order", "statement": "Dominance guided by a reference point is irreflexive and transitive; a point on one side of the reference dominates any point that is on neither side; two points on neither side never dominate each other.", "quantifier": "all reference points and objective vectors", "why_tests_cant": "infinitely many inputs; a test samples a few", "anchors": ["moeo/src/comparator/moeoGDominanceObjectiveVectorComparator.h"]}
{"id": "C70", "title": "Feasible/infeasible dominance is a strict partial order", "statement": "With vectors carrying a feasibility mark, a feasible vector dominates every infeasible one, two of the same kind compare by Pareto dominance, and the relation is irreflexive and transitive.", "quantifier": "all marked vectors", "why_tests_cant": "infinitely many inputs; a test samples a few", "anchors": ["moeo/src/comparator/moeoParetoDualObjectiveVectorComparator.h"]}
{"id": "C71", "title": "Dominance-depth fitness after a deletion", "statement": "The incremental update of the dominance-depth fitness after one solution is deleted changes no fitness; this equals recomputation when the deleted solution dominates nobody (as in the environmental replacement, which deletes from the last front). (In general it is wrong: after deletions a dominated solution can be left with better fitness than its remaining dominator.)", "quantifier": "all populations and deletions", "why_tests_cant": "unbounded populations; the wrong cases need a specific dominance structure", "anchors": ["moeo/src/fitness/moeoDominanceDepthFitnessAssignment.h updateByDeleting"]}
{"id": "C72", "title": "Binary hypervolume indicator", "statement": "The hypervolume indicator of two vectors inside the objective bounds is, up to the sign, the normalised volume dominated by one and not by the other (below the reference point); it is negative iff computed for a first vector that dominates the second, and non-negative otherwise.", "quantifier": "all vectors, bounds, directions, reference factors and numbers of objectives", "why_tests_cant": "infinitely many inputs; a test samples a few", "anchors": ["moeo/src/metric/moeoHypervolumeBinaryMetric.h operator(), hypervolume"]}
{"id": "C73", "title": "Tournament truncation and the best individual", "statement": "Reduction by inverse deterministic tournaments of size at least two never removes a strictly best individual. (Reduction by stochastic tournaments and by EP tournaments may remove it.)", "quantifier": "all populations, sizes and random streams", "why_tests_cant": "random stream; the losing draws are rare", "anchors": ["eo/src/eoReduce.h eoDetTournamentTruncate, eoStochTournamentTruncate, eoEPReduce"]}
{"id": "C74", "title": "Reduce-merge-reduce keeps the size and its strong elite", "statement": "The general replacement gives back exactly as many individuals as there were parents; with strong elitism of k individuals the k best parents are in the new generation.", "quantifier": "all populations, parameters, reducers that keep their contract", "why_tests_cant": "composition of arbitrary reducers", "anchors": ["eo/src/eoReduceMergeReduce.h operator()"]}
{"id": "C75", "title": "Weak elitism in reduce-merge-reduce", "statement": "With weak elitism the general replacement should save the best parent when the offspring lost it. (With an elite of one, nothing is ever saved: the best parent is lost whenever it is the unique best.)", "quantifier": "all populations with weak elite of one", "why_tests_cant": "needs an adversarial reduction", "anchors": ["eo/src/eoReduceMergeReduce.h operator()"]}
{"id": "C76", "title": "Survive-and-die replacement", "statement": "A survive-and-die replacement lets the announced best individuals survive, the announced worst die, and takes the rest as its reducer decides; it gives the number of individuals requested or an error.", "quantifier": "all populations, rates and reducers", "why_tests_cant": "infinitely many inputs; a test samples a few", "anchors": ["eo/src/eoSurviveAndDie.h eoSurviveAndDie, eoDeterministicSaDReplacement"]}
{"id": "C77", "title": "Minimal generation gap replacement", "statement": "The replacement takes away the given number of parents, and puts in their place individuals drawn from those parents and the offspring, the best of them first; all the other parents stay.", "quantifier": "all populations, streams and parameters", "why_tests_cant": "random stream", "anchors": ["eo/src/eoMGGReplacement.h"]}
{"id": "C78", "title": "G3 replacement", "statement": "A fixed number of parents is taken away; the best of them and of all the offspring take their place, the others stay. (With rates instead of absolute numbers the replacement throws.)", "quantifier": "all populations, streams and parameters", "why_tests_cant": "random stream", "anchors": ["eo/src/eoG3Replacement.h"]}
{"id": "C79", "title": "Steady-state replacements", "statement": "A steady-state replacement first removes from the parents as many individuals as there are offspring and then adds all the offspring: the size is constant, all the offspring are in; removing the worst keeps the best of the parents.", "quantifier": "all populations and offspring not more numerous than the parents", "why_tests_cant": "infinitely many inputs; a test samples a few", "anchors": ["eo/src/eoReduceMerge.h eoReduceMerge, eoSSGAWorseReplacement, eoSSGADetTournamentReplacement, eoSSGAStochTournamentReplacement"]}
{"id": "C80", "title": "Reduce-split gives a partition of the population", "statement": "Splitting a population by truncation, at random, linearly or by tournaments removes exactly the requested number of individuals; those removed are added to the second population when they are wanted, and otherwise it stays as it is. (Asking for more than there are is undefined behaviour for truncation and random splits and an exception for the linear one; splitting off everything by tournaments never ends.)", "quantifier": "all populations and sizes", "why_tests_cant": "undefined behaviour and non-termination", "anchors": ["eo/src/eoReduceSplit.h"]}
{"id": "C81", "title": "Epsilon comparator", "statement": "Epsilon-dominance with a factor at least one relaxes weak dominance. (This is so for maximised non-negative objectives; for minimised positive ones the factor works the other way round and makes the comparison stricter.)", "quantifier": "all objective vectors, directions and tolerances", "why_tests_cant": "boundary values", "anchors": ["moeo/src/comparator/moeoEpsilonObjectiveVectorComparator.h"]}
{"id": "C82", "title": "Archive queries agree with the archive contents", "statement": "Whether an archive dominates a vector, contains a vector or equals another archive is as defined by its contents; a solution offered to the archive is, after the update, either contained or dominated. (Equality up to a tolerance is not transitive.)", "quantifier": "all archives and vectors", "why_tests_cant": "infinitely many inputs; a test samples a few", "anchors": ["moeo/src/archive/moeoArchive.h dominates, contains, equals"]}
{"id": "C83", "title": "Proportional selection has the right probabilities", "statement": "Proportional selection returns an individual exactly when the uniform draw falls into that individual's share of the cumulated fitness, so its probability is its fitness divided by the sum; every draw below one selects somebody. (If all fitnesses are zero the last individual is always returned; the weights are those of the last setup, not of the population passed.)", "quantifier": "all non-negative fitness lists and all draws", "why_tests_cant": "probabilities over a continuum of draws; boundary draws", "anchors": ["eo/src/eoProportionalSelect.h setup, operator()"]}
{"id": "C84", "title": "Stochastic universal sampling gives everybody the expected number of copies", "statement": "Drawing a whole population with stochastic universal sampling selects each individual a number of times which is its expected number n*fitness/sum rounded down or up, whatever the draw, and returns as many individuals as the population has. (The rule holds off the borders; with equal fitnesses 1, 1 and the draw 0 the first is selected twice; all fitnesses zero read past the end.)", "quantifier": "all populations of non-negative fitness, all draws off the borders, all shuffles", "why_tests_cant": "holds for a continuum of draws; a test samples frequencies", "anchors": ["eo/src/eoStochasticUniversalSelect.h setup, operator()", "eo/src/eoSelectMany.h operator()"]}
{"id": "C85", "title": "Sequential selection is fair", "statement": "Sequential selection returns, in every cycle of n calls on a population of n, each individual exactly once, for any number of cycles; in the ordered mode from the best to the worst; the elitist variant begins its cycle with a best individual (and refuses a population of one).", "quantifier": "all populations, all numbers of cycles, all shuffles", "why_tests_cant": "unbounded number of calls and arbitrary shuffles", "anchors": ["eo/src/eoSequentialSelect.h eoSequentialSelect, eoEliteSequentialSelect"]}
{"id": "C86", "title": "Elite selection", "statement": "Elite selection should return the best individual. (It returns the individual at the first place, which is the best only if the population is sorted.)", "quantifier": "all populations", "why_tests_cant": "a test on a sorted population does not see it", "anchors": ["eo/src/eoSequentialSelect.h eoEliteSelect"]}
{"id": "C87", "title": "Deterministic selection repeats the population", "statement": "Deterministic selection returns individual j mod n of the source at place j, up to the number asked for; ranked mu selection returns the mu best individuals of the source, best first. (An empty source divides by zero.)", "quantifier": "all populations and numbers", "why_tests_cant": "infinitely many inputs; a test samples a few", "anchors": ["eo/src/eoDetSelect.h operator()", "eo/src/eoRankMuSelect.h"]}
{"id": "C88", "title": "Truncated selection selects only from the best", "statement": "With truncated selection, everything selected is one of the given number of best individuals of the source, whatever selector is used inside. (Asking for more fertile individuals than exist lets default-constructed individuals into the selection, or reads past the end.)", "quantifier": "all populations, inner selectors, fertile counts", "why_tests_cant": "arbitrary inner selector", "anchors": ["eo/src/eoTruncatedSelectOne.h setup, operator()", "eo/src/eoTruncatedSelectMany.h operator()"]}
{"id": "C89", "title": "Selecting many", "statement": "Selecting many with any selector gives exactly the requested number of individuals, each of them a member of the source, or an error.", "quantifier": "all selectors, populations, numbers and rates", "why_tests_cant": "arbitrary selector", "anchors": ["eo/src/eoSelectMany.h operator()", "eo/src/eoSelectNumber.h operator()"]}
{"id": "C90", "title": "Ranking worths", "statement": "Ranking gives everybody a positive worth; a better fitness gives a strictly larger worth and the worths lie in the documented range [(2-p)/n, p/n]. (With exponent 1 the best always gets more than p/n and the worths sum to more than one; beyond 65536 individuals a 32-bit product overflows. With any other exponent the range holds.)", "quantifier": "all populations, orders, pressures, power functions", "why_tests_cant": "off-by-one hidden in a normalisation, overflow only at 65537 individuals", "anchors": ["eo/src/eoRanking.h operator()"]}
{"id": "C91", "title": "Linear fitness scaling", "statement": "Linear scaling gives non-negative worths in the order of the fitness; the best gets pressure/n; the worths sum to at least one, and to one if none was cut at zero. (If all the fitnesses are equal it divides by zero.)", "quantifier": "all fitness lists, pressures at least one", "why_tests_cant": "infinitely many inputs; a test samples a few", "anchors": ["eo/src/eoLinearFitScaling.h operator()"]}
{"id": "C92", "title": "Fitness sharing", "statement": "Sharing divides each fitness by its niche count: the result lies between fitness/n and fitness, an individual alone in its niche keeps its fitness, n copies get fitness/n each. (Populations of at most one individual are refused.)", "quantifier": "all distances, niche sizes, fitness lists", "why_tests_cant": "infinitely many inputs; a test samples a few", "anchors": ["eo/src/eoSharing.h operator()"]}
{"id": "C93", "title": "No stale fitness through nested operators", "statement": "If every elementary operator tells the truth (returns false only if it changed nothing), then whatever way operators are nested in sequences and proportional choices, no offspring of the general breeder carries a valid fitness that is not that of its genome: offspring that are still valid are exact copies of parents.", "quantifier": "all nestings of operators, all populations, selections and random draws", "why_tests_cant": "arbitrary nesting depth and arbitrary user operators", "anchors": ["eo/src/eoGenOp.h eoMonGenOp, eoBinGenOp, eoQuadGenOp", "eo/src/eoOpContainer.h eoSequentialOp, eoProportionalOp", "eo/src/eoInvalidateOps.h", "eo/src/eoGeneralBreeder.h operator()"]}
{"id": "C94", "title": "The breeder gives the number of offspring wanted", "statement": "The general breeder returns exactly the number of offspring asked for, and it does return for every operator built of elementary operators and proportional choices with non-negative, not all zero rates. (A sequence none of whose operators fires produces nothing, so with all rates zero the breeder never returns; a proportional choice with all rates zero reads past the end.)", "quantifier": "all operators of the kind, populations, numbers and random draws", "why_tests_cant": "unbounded number of operator calls; non-termination cannot be tested", "anchors": ["eo/src/eoGeneralBreeder.h operator()", "eo/src/eoPopulator.h", "eo/src/eoOpContainer.h"]}
{"id": "C95", "title": "Standard genetic operator", "statement": "The operator of the simple genetic algorithm takes two selected parents, crosses them with the crossover probability, then exposes each child once to the mutation with the mutation probability, and appends exactly these two. (A sequence of two crossovers may produce more than its announced maximum, using a dangling reference; a proportional choice after a crossover in a sequence never reaches the second child.)", "quantifier": "all operators, rates, selections, draws", "why_tests_cant": "the order of random events is not observable in a test; dangling references need an exact capacity", "anchors": ["eo/src/eoSGAGenOp.h apply", "eo/src/eoOpContainer.h eoSequentialOp::apply, eoProportionalOp::apply", "eo/src/eoPopulator.h"]}
{"id": "C96", "title": "One-to-one breeder", "statement": "With an operator on one individual and evaluated parents, the one-to-one breeder returns exactly the number wanted, offspring i being the evaluated child of the parent selected in turn i, or this parent where it is strictly better; with replacement probability one nobody is worse than its parent. (Parents not evaluated make it throw; with a sequence or a proportional choice as operator it can never succeed.)", "quantifier": "all mutations, fitness functions, populations, draws", "why_tests_cant": "infinitely many inputs; a test samples a few", "anchors": ["eo/src/eoOneToOneBreeder.h operator()"]}
{"id": "C97", "title": "Transformation of the simple genetic algorithm", "statement": "The transformation keeps the number of individuals; individuals 2i and 2i+1 are crossed with each other or both kept, a last one without partner is kept, then each is mutated or kept in place; no stale fitness arises.", "quantifier": "all populations (of even and odd size), operators, rates, draws", "why_tests_cant": "infinitely many inputs; a test samples a few", "anchors": ["eo/src/eoSGATransform.h operator()"]}
{"id": "C98", "title": "Crossovers of variable length", "statement": "Exchanging atoms of variable-length individuals conserves all atoms in their order and respects the size bounds, or changes nothing and says so. (The uniform variants do not empty their temporaries between tries, so that atoms get duplicated; the one-parent variant says it changed nothing although the genes were replaced by those of the other parent; a success at the last announced try is reported as failure.)", "quantifier": "all parents, bounds, masks and random draws", "why_tests_cant": "depends on all sequences of draws, up to 10000 tries", "anchors": ["eo/src/eoVariableLengthCrossover.h eoVlAtomExchangeQuadOp, eoInnerExchangeQuadOp, eoVlUniformQuadOp, eoVlUniformBinOp"]}
{"id": "C99", "title": "Mutations of variable length", "statement": "The adding mutation inserts exactly one atom at any place, the deleting one removes exactly one, the other atoms keep their order; the sizes never leave the bounds, and at the bound nothing happens and the mutation says so.", "quantifier": "all individuals, bounds, atoms and draws", "why_tests_cant": "infinitely many inputs; a test samples a few", "anchors": ["eo/src/eoVariableLengthMutation.h eoVlAddMutation, eoVlDelMutation"]}
{"id": "C100", "title": "The loop of the evolutionary algorithm", "statement": "A run that returns has kept the size of the population (a replacement changing it makes the run throw), has done at least one generation, leaves everybody evaluated with the fitness of their genome, and, with a replacement that keeps the best, has somebody at least as good as anybody ever evaluated; with a generation limit of k it does exactly max(k,1) generations.", "quantifier": "all objective functions, truthful operators, selections, draws, populations and run lengths", "why_tests_cant": "invariant over unboundedly many generations and composed user parts", "anchors": ["eo/src/eoEasyEA.h operator()", "eo/src/eoGenContinue.h operator()", "eo/src/eoGeneralBreeder.h", "eo/src/eoMergeReduce.h eoPlusReplacement"]}
{"id": "C101", "title": "Continuators", "statement": "The generation continuator stops at exactly its total; the steady-fitness continuator stops exactly when the best fitness since the minimum number of generations has not been improved for more than the given number; the fitness continuator exactly when somebody reaches the optimum; the periodic one at the multiples; the combination answers the conjunction but asks nobody after the first refusal; stopping by evaluations overshoots by less than the offspring of the last generation and never stops when nothing is evaluated.", "quantifier": "all sequences of populations", "why_tests_cant": "arbitrary sequences of calls", "anchors": ["eo/src/eoGenContinue.h", "eo/src/eoSteadyFitContinue.h", "eo/src/eoFitContinue.h", "eo/src/eoPeriodicContinue.h", "eo/src/eoCombinedContinue.h", "eo/src/eoEvalContinue.h"]}
{"id": "C102", "title": "Checkpoint", "statement": "A call of the checkpoint calls every sorted statistic, statistic, updater, monitor and continuator exactly once, in this order, without short circuit; it answers true exactly if all continuators do; the last calls of all components happen exactly when it answers false, after everything else, so in a whole run exactly once.", "quantifier": "all numbers of components, continuators, populations and run lengths", "why_tests_cant": "order and multiplicity over whole runs", "anchors": ["eo/src/utils/eoCheckPoint.h operator()", "eo/src/eoEasyEA.h operator()"]}
{"id": "C103", "title": "Evaluator that keeps the best", "statement": "After any sequence of evaluations the kept individual is the first of the best evaluated; found() tells whether the last one strictly improved on all the others, but not for the very first one.", "quantifier": "all sequences of individuals and evaluators", "why_tests_cant": "infinitely many inputs; a test samples a few", "anchors": ["eo/src/eoEvalKeepBest.h operator(), found()"]}
{"id": "C104", "title": "Evaluation limit by exception", "statement": "With a limit on the evaluations exactly that number of evaluations is made (at least one): the exception comes at the individual reaching the limit, which is evaluated, the later ones are untouched; already valid individuals do not count.", "quantifier": "all populations, limits and starting counts", "why_tests_cant": "infinitely many inputs; a test samples a few", "anchors": ["eo/src/eoEvalCounterThrowException.h operator()", "eo/src/apply.h"]}
{"id": "C105", "title": "Simple genetic algorithm and restarts", "statement": "A generation of the simple genetic algorithm keeps the population size and leaves everybody rightly evaluated; a restart runs the algorithm at least once, always on a freshly initialised and evaluated population of the same size, and keeps nothing of the earlier turns.", "quantifier": "all truthful operators, selectors, rates, algorithms and continuators", "why_tests_cant": "infinitely many inputs; a test samples a few", "anchors": ["eo/src/eoSGA.h operator()", "eo/src/eoSelectPerc.h", "eo/src/eoAlgoRestart.h operator()", "eo/src/eoAlgoReset.h eoAlgoPopReset"]}
{"id": "C106", "title": "Neighbours in the island topologies", "statement": "In the complete topology everybody neighbours everybody else; in the ring island i sends to i+1 modulo n only; in the star everybody but the centre sends to the centre; in the hypercube two islands are neighbours exactly if their numbers differ in one bit, for sizes that are powers of two, other sizes being refused by an assertion; in the mesh the neighbours are those left, right, above and below in the grid. (A ring of one island sends to itself; the hypercube on zero islands is undefined.)", "quantifier": "all numbers of islands", "why_tests_cant": "sizes unbounded", "anchors": ["smp/src/topology/complete.cpp operator()", "smp/src/topology/ring.cpp operator()", "smp/src/topology/star.cpp operator()", "smp/src/topology/hypercubic.cpp operator()", "smp/src/topology/mesh.cpp operator()", "smp/src/topology/topology.cpp getIdNeighbors"]}
{"id": "C107", "title": "Sizes a mesh can have", "statement": "The mesh of default ratio is defined exactly for those numbers of islands that form a rectangle with at least two rows and columns, and is then the squarest such rectangle. (For zero, one and prime numbers of islands it reads past the end of the list of divisors.)", "quantifier": "all numbers of islands", "why_tests_cant": "all primes fail", "anchors": ["smp/src/topology/mesh.cpp operator()", "smp/src/topology/mesh.cpp setRatio"]}
{"id": "C108", "title": "Who reaches whom", "statement": "In the ring, complete, hypercubic and mesh topologies every island reaches every other through some sequence of migrations. In the star, everybody reaches the centre and the centre reaches nobody else.", "quantifier": "all sizes, all pairs of islands", "why_tests_cant": "paths of unbounded length", "anchors": ["smp/src/topology"]}
{"id": "C109", "title": "Isolating an island", "statement": "Isolating an island removes exactly the links to and from it and leaves all others alone, in fixed and in stochastic topologies; after all have been isolated nobody has a neighbour.", "quantifier": "all topologies, islands, orders of isolation", "why_tests_cant": "infinitely many inputs; a test samples a few", "anchors": ["smp/src/topology/topology.cpp isolateNode", "smp/src/topology/customBooleanTopology.cpp isolateNode", "smp/src/topology/customStochasticTopology.cpp isolateNode"]}
{"id": "C110", "title": "Topology files", "statement": "A topology file is accepted exactly if every non-empty line has as many numbers as the first line and there are as many such lines; the topology is then the matrix in the file, entries being clamped to [0, 1] in the stochastic case. (A file whose first line is empty is refused unless all lines are empty.)", "quantifier": "all files as lists of lines of numbers", "why_tests_cant": "arbitrary files", "anchors": ["smp/src/topology/customBooleanTopology.cpp", "smp/src/topology/customStochasticTopology.cpp"]}
{"id": "C111", "title": "Linear scheduling evaluates everybody once", "statement": "The linear scheduler cuts the population into consecutive packages, one for each worker, which together cover everybody exactly once; in every interleaving of the workers, each individual is evaluated exactly once and the result is that of the sequential evaluation. (Without workers it divides by zero.)", "quantifier": "all populations, numbers of workers, interleavings of the threads", "why_tests_cant": "the interleavings cannot be enumerated by tests", "anchors": ["smp/src/scheduler.cpp operator()", "smp/src/scheduler.h"]}
{"id": "C112", "title": "Progressive scheduling evaluates everybody once", "statement": "With the progressive scheduler, in every interleaving of the main thread and the workers: nobody is evaluated twice, no state is a deadlock, and when the scheduler returns everybody has been evaluated exactly once. (The main thread reads the workers' indices without their mutex: a data race; without workers the scheduler never returns.)", "quantifier": "all populations, worker counts and interleavings", "why_tests_cant": "interleavings of unboundedly many steps", "anchors": ["smp/src/scheduler.cpp operator()", "smp/src/scheduler.h"]}
{"id": "C113", "title": "Migration delivers to neighbours, at most once", "statement": "In every interleaving of the islands, the model and the message threads: what an island integrates was emitted by an island linked to it; nobody integrates a batch twice; a batch the model takes from its queue while both ends of a link are known to work is integrated by the receiver before the model returns, at which time all queues are empty. (A batch taken from the queue after its island was seen to have stopped, or after the main loop, is lost: in particular the forced last integration forwards nothing.)", "quantifier": "all topologies, populations, algorithms, policies and interleavings", "why_tests_cant": "interleavings of unboundedly many threads and messages", "anchors": ["smp/src/islandModel.cpp operator(), send, update", "smp/src/island.cpp operator(), check, send, receive, update"]}
{"id": "C114", "title": "Islands keep their populations sound and the model can return", "statement": "Immigrants enter a population only after having been invalidated and evaluated, so that any property ensured by the evaluation and kept by algorithm and integration policy holds of all individuals of all islands at all times. From every state there is a continuation in which all islands stop and the model returns.", "quantifier": "all executions", "why_tests_cant": "interleavings of unboundedly many threads and messages", "anchors": ["smp/src/island.cpp receive", "smp/src/islandModel.cpp operator()"]}
{"id": "C115", "title": "Shared stopping criterion", "statement": "The criterion shared by islands is meant to stop all of them as soon as one has reached the optimum. (It does the opposite: among all calls of all islands at most one ever answers to go on; if nobody has reached the optimum all calls but the first stop their island; if the first has reached it, the next island that has not is told to go on.)", "quantifier": "all sequences of populations", "why_tests_cant": "depends on the sequence of calls of several threads", "anchors": ["smp/src/sharedFitContinue.cpp operator()"]}
{"id": "C116", "title": "Numbering of the islands", "statement": "Distinct islands are numbered from zero in the order in which they were added and the table translates both ways consistently. (An island added twice is known under both numbers, but its emigrants go to the neighbours of the later one only.)", "quantifier": "all lists of islands", "why_tests_cant": "infinitely many inputs; a test samples a few", "anchors": ["smp/src/islandModel.cpp createTable", "smp/src/bimap.cpp add"]}
{"id": "C117", "title": "Printed JSON can be read back", "statement": "Printing an entity of the serialization library (strings, arrays and objects nested in any way) and parsing the text gives back the same entity, provided every string in it is one whose unescaped end can be found: it contains no quote that is not escaped by a backslash and does not end in an escaping backslash. Exactly these strings survive; in particular all strings without quotes and backslashes do. Two such entities that are printed alike are equal.", "quantifier": "all nested entities", "why_tests_cant": "infinitely many inputs; a test samples a few", "anchors": ["eo/src/serial/Parser.cpp Parser::parse, parseRight, parseString", "eo/src/serial/SerialObject.cpp print", "eo/src/serial/SerialArray.cpp print", "eo/src/serial/SerialString.cpp print"]}
{"id": "C118", "title": "Texts the JSON parser was not meant for", "statement": "Parsing returns an entity or fails. (It does not: an array with unquoted content, as other programs write numbers, makes the parser loop for ever, and an object with an unquoted value makes it read outside the text.)", "quantifier": "all such texts", "why_tests_cant": "non-termination cannot be tested", "anchors": ["eo/src/serial/Parser.cpp parseRight"]}
{"id": "C119", "title": "Numbers in JSON", "statement": "A number that is stored as text and read back is unchanged. (With the sixteen significant digits used, two different doubles are printed alike, so one of them is changed; seventeen digits suffice for doubles between one and two.)", "quantifier": "all doubles from one to two", "why_tests_cant": "2^52 values", "anchors": ["eo/src/serial/Utils.h make, PackImpl", "eo/src/serial/SerialString.h deserialize"]}
{"id": "C120", "title": "Distributed application of a function", "statement": "When the job that applies a function to a table with the help of worker processes is over, every entry of the table has been replaced by its image, the function has been called exactly once for each entry, every worker has been told exactly once that the job is over and nobody else has, and no message is left under way; whatever the packet size, the assignment algorithm (dynamic or static, with any number of announced runs) and the order in which messages travel and workers compute.", "quantifier": "all tables, packet sizes, sets of workers with positive ranks, and interleavings", "why_tests_cant": "interleavings of unboundedly many processes and messages", "anchors": ["eo/src/mpi/eoMpi.h Job::master, Job::worker, FinallyBlock", "eo/src/mpi/eoParallelApply.h", "eo/src/mpi/eoMpiAssignmentAlgorithm.cpp"]}
{"id": "C121", "title": "Distributed jobs end", "statement": "With the dynamic assignment and at least one worker, and with the static assignment and at least as many announced runs as packets, every execution is over after at most four steps for each entry plus three, and never gets stuck. (With fewer announced runs than packets no execution ever comes to its end: the master waits for ever. The same happens if rank 0 is a worker, because it is taken for 'nobody'.)", "quantifier": "all tables, packet sizes, sets of workers and interleavings", "why_tests_cant": "interleavings of unboundedly many processes and messages; deadlocks cannot be tested", "anchors": ["eo/src/mpi/eoMpi.h Job::master, FinallyBlock", "eo/src/mpi/eoMpiAssignmentAlgorithm.cpp"]}
{"id": "C122", "title": "Static assignment shares fairly", "statement": "The static assignment divides the announced number of runs among the workers so that shares differ by at most one, earlier workers have the larger ones and their sum is the number of runs. However hand-outs and confirmations alternate, nobody is ever given more than its share; after as many hand-outs as announced everybody has been given exactly its share; and 'nobody' is answered only when every worker is busy or has had its share.", "quantifier": "all numbers of runs, sets of workers and sequences of calls", "why_tests_cant": "infinitely many inputs; a test samples a few", "anchors": ["eo/src/mpi/eoMpiAssignmentAlgorithm.cpp StaticAssignmentAlgorithm"]}
{"id": "C123", "title": "Cholesky factors of covariance matrices", "statement": "Whatever the LLT and LDLT factorisations used for sampling return is a lower triangular matrix with a nonnegative diagonal of which the product with its transpose is the given symmetric matrix. They return exactly for the positive semidefinite matrices whose leading block without the last row and column is positive definite, and then return the same matrix. For positive definite matrices all variants return this one and no other matrix with a positive diagonal has the property.", "quantifier": "all symmetric matrices of all sizes", "why_tests_cant": "infinitely many inputs; a test samples a few", "anchors": ["edo/src/utils/edoCholesky.h CholeskyLLT, CholeskyLDLT"]}
{"id": "C124", "title": "Robust Cholesky variants", "statement": "The variants that take the absolute value of negative pivots or replace them by zero never change entries outside the diagonal, never decrease the diagonal, and give the matrix back exactly when it is positive semidefinite. (They are less robust than announced: no variant accepts a negative first entry, and replacing by zero returns only when all but the last pivot are positive, because it divides by the replaced pivot.)", "quantifier": "all symmetric matrices of all sizes", "why_tests_cant": "infinitely many inputs; a test samples a few", "anchors": ["edo/src/utils/edoCholesky.h CholeskyLLTabs, CholeskyLLTzero"]}
{"id": "C125", "title": "Bounders repair what is outside and nothing else", "statement": "The clamping bounder moves each variable to the nearest point of its interval, the drawing bounder redraws exactly the variables outside and puts them inside, one draw for each; variables inside are left alone. They are defined exactly when there are bounds for all variables. (A bounder with its own generator can leave the solution outside; none invalidates the fitness of a solution it moves.)", "quantifier": "all solutions, bounds and draws", "why_tests_cant": "infinitely many inputs; a test samples a few", "anchors": ["edo/src/edoBounderBound.h", "edo/src/edoBounderUniform.h", "edo/src/edoBounderRng.h"]}
{"id": "C126", "title": "Rounding repairers", "statement": "Floor and ceiling give the neighbouring integers; rounding with a number of decimals gives the nearest multiple, ties away from zero, is odd and idempotent; modulo differs from the variable by a multiple of the denominator and is smaller than it in absolute value. All invalidate the solution. (Modulo keeps the sign of negative variables.)", "quantifier": "all solutions, precisions and denominators", "why_tests_cant": "infinitely many inputs; a test samples a few", "anchors": ["edo/src/edoRepairerRound.h", "edo/src/edoRepairerModulo.h", "edo/src/edoRepairerApply.h"]}
{"id": "C127", "title": "Repairers dispatched on parts of a solution", "statement": "A dispatcher of repairers over lists of indices changes only variables at listed indices; the variables at distinct listed indices become the result of the repairer on them in the order of the list; repairers on disjoint indices commute; it is defined when the indices are in the solution.", "quantifier": "all solutions, lists of indices and repairers", "why_tests_cant": "infinitely many inputs; a test samples a few", "anchors": ["edo/src/edoRepairerDispatcher.h operator()"]}
{"id": "C128", "title": "Learning and sampling uniform distributions", "statement": "The uniform distribution learned from a population is the smallest box that contains it, its bounds being attained, and every solution sampled from it lies in the box; a variable that all individuals have in common is in every sample.", "quantifier": "all nonempty populations of vectors of equal size, all draws", "why_tests_cant": "infinitely many inputs; a test samples a few", "anchors": ["edo/src/edoEstimatorUniform.h operator()", "edo/src/edoSamplerUniform.h sample"]}
{"id": "C129", "title": "Learning and sampling binomial distributions", "statement": "The probabilities learned from bit strings are the frequencies of the ones, hence between zero and one, and a bit that all individuals have in common is in every sample.", "quantifier": "all nonempty populations of bit strings of equal size, all draws", "why_tests_cant": "infinitely many inputs; a test samples a few", "anchors": ["edo/src/edoEstimatorBinomial.h operator()", "edo/src/edoSamplerBinomial.h sample"]}
{"id": "C130", "title": "Learning independent normal distributions", "statement": "The means and variances learned by the one-pass recurrence are exactly the means and (population) variances of the values, whatever their number and order.", "quantifier": "all nonempty populations of vectors of equal size", "why_tests_cant": "infinitely many inputs; a test samples a few", "anchors": ["edo/src/edoEstimatorNormalMono.h Variance, operator()"]}
{"id": "C131", "title": "Learning multivariate normal distributions", "statement": "The matrix learned from a population is meant to be its covariance matrix. (It is the covariance matrix plus the products of the means, hence right exactly when the means are zero and not zero for a converged population; with at least two individuals fewer than variables sampling always fails.)", "quantifier": "all populations and dimensions", "why_tests_cant": "infinitely many inputs; a test samples a few", "anchors": ["edo/src/edoEstimatorNormalMulti.h CovMatrix", "edo/src/edoSamplerNormalMulti.h sample"]}
{"id": "C132", "title": "Moments of normal samples", "statement": "For random numbers with mean zero, variance one and no correlation, samples of the normal distributions have the mean, and for a positive definite matrix the covariance matrix, of the distribution. So one generation of learning and sampling a multivariate normal distribution inflates the covariance matrix by the products of the means.", "quantifier": "all dimensions, means, positive definite matrices and linear expectations", "why_tests_cant": "moments cannot be tested exactly", "anchors": ["edo/src/edoSamplerNormalMulti.h sample", "edo/src/edoSamplerNormalMono.h sample"]}
{"id": "C133", "title": "Simulated annealing on a distribution", "statement": "The annealing loop within an estimation-of-distribution algorithm is meant to refuse bad candidates with growing probability as the temperature falls. (It accepts every candidate at every positive temperature, so its population is the sequence of all candidates drawn.)", "quantifier": "all temperatures, candidates, draws and stopping criteria", "why_tests_cant": "probabilistic behaviour", "anchors": ["edo/src/edoEDASA.h operator()"]}
{"id": "C134", "title": "CMA-ES recombination", "statement": "The recombination weights are positive, strictly decreasing with the rank and sum to one; the effective number of individuals is between one and the number of individuals; the new mean lies in the convex hull of the selected individuals, that is it satisfies every linear constraint all of them satisfy.", "quantifier": "all population sizes, dimensions and populations", "why_tests_cant": "infinitely many inputs; a test samples a few", "anchors": ["edo/src/edoEstimatorNormalAdaptive.h edoCMAESweights, operator()"]}
{"id": "C135", "title": "CMA-ES keeps a proper distribution", "statement": "Starting from the initial distribution, after any number of generations with any selected populations of at most (N+1.3)^2 individuals, the update has been defined, the covariance matrix is symmetric positive definite, step size and scalings are positive and the coordinate system is orthonormal.", "quantifier": "all dimensions, numbers of generations and populations; any eigenvalue solver that keeps its contract", "why_tests_cant": "infinitely many inputs; a test samples a few", "anchors": ["edo/src/edoEstimatorNormalAdaptive.h operator()", "edo/src/edoNormalAdaptive.h"]}
{"id": "C136", "title": "CMA-ES with many individuals", "statement": "The learning rates are meant to be fractions. (They are not limited: for every dimension there is a population size from which the rates of the covariance matrix exceed one together; one update of the initial distribution with a converged population then makes the covariance matrix negative definite and its square root undefined.)", "quantifier": "all dimensions", "why_tests_cant": "infinitely many inputs; a test samples a few", "anchors": ["edo/src/edoEstimatorNormalAdaptive.h operator()"]}
{"id": "C137", "title": "CMA-ES samples", "statement": "Samples have the mean of the distribution, and after an update that has decomposed the covariance matrix their covariance is that matrix times the square of the step size. (The constant for the expected length of a normal vector is too large by an integer division, so that the step size shrinks when the evolution path has exactly the neutral length.)", "quantifier": "all dimensions, distributions and linear expectations", "why_tests_cant": "moments cannot be tested exactly", "anchors": ["edo/src/edoSamplerNormalAdaptive.h sample", "edo/src/edoEstimatorNormalAdaptive.h operator()"]}
{"id": "C138", "title": "CMA-ES does not depend on origin and unit", "statement": "Shifting the origin and changing the unit of the search space, of the distribution and of all populations changes the whole run and all samples by the same shift and unit and nothing else.", "quantifier": "all runs, shifts and positive units", "why_tests_cant": "infinitely many inputs; a test samples a few", "anchors": ["edo/src/edoEstimatorNormalAdaptive.h operator()", "edo/src/edoSamplerNormalAdaptive.h sample"]}
{"id": "C139", "title": "Particles remember their best place", "statement": "In both particle swarm algorithms, whatever velocity and flight are used, no exception occurs and after every generation each particle remembers the best of all places at which it was evaluated, including its initial one, together with that fitness.", "quantifier": "all swarms, fitness functions, velocities, flights, numbers of generations; star, linear and ring topology", "why_tests_cant": "infinitely many inputs; a test samples a few", "anchors": ["eo/src/eoEasyPSO.h operator()", "eo/src/eoSyncEasyPSO.h operator()", "eo/src/eoStarTopology.h updateNeighborhood", "eo/src/eoLinearTopology.h updateNeighborhood", "eo/src/eoRingTopology.h updateNeighborhood", "eo/src/eoInitializer.h operator()"]}
{"id": "C140", "title": "Groups remember their best place", "statement": "The linear topology divides the swarm into groups: every particle is in exactly one, with at least the requested and less than twice the requested number of members. In every generation the place that attracts a particle is the best of all places visited by its group, and the global best is the best of all places visited by any particle; with the star topology the place that attracts is the best of all.", "quantifier": "all swarm sizes, group sizes, fitness functions, velocities, flights, numbers of generations", "why_tests_cant": "infinitely many inputs; a test samples a few", "anchors": ["eo/src/eoLinearTopology.h", "eo/src/eoStarTopology.h", "eo/src/eoSocialNeighborhood.h"]}
{"id": "C141", "title": "Ring topology", "statement": "With the ring topology particles are attracted by the best place that their neighbours have found. (They are not: for neighbourhoods of two or more particles the loop that informs the neighbours is never entered, so the places that attract the particles are those of the initial swarm forever; for neighbourhoods of one particle a wrong neighbourhood is informed as soon as the index exceeds the number of variables.)", "quantifier": "all swarms, neighbourhood sizes up to 2^31, numbers of generations", "why_tests_cant": "infinitely many inputs; a test samples a few", "anchors": ["eo/src/eoRingTopology.h updateNeighborhood", "eo/src/eoRingTopology.h setup"]}
{"id": "C142", "title": "Bounds of particle swarms", "statement": "After every move the velocity satisfies the velocity bounds and the position the position bounds, and a position within the bounds changes by at most the velocity; in a run that starts within the bounds the positions, the remembered positions and the places that attract stay within.", "quantifier": "all bounds (one-sided, two-sided, none), velocity rules, topologies, numbers of generations", "why_tests_cant": "infinitely many inputs; a test samples a few", "anchors": ["eo/src/eoStandardFlight.h operator()", "eo/src/eoStandardVelocity.h operator()", "eo/src/eoConstrictedVelocity.h operator()"]}
{"id": "C143", "title": "Confinement of particle swarms", "statement": "Random numbers are drawn once per particle, so without bounds a swarm whose initial positions satisfy a linear equation, with velocities along it, satisfies it forever: places outside the affine hull of the initial swarm are never searched, in particular a variable in which all particles agree and are at rest never changes.", "quantifier": "all linear equations, weights, draws, fitness functions, topologies, numbers of generations", "why_tests_cant": "no finite number of runs shows that a place is never reached", "anchors": ["eo/src/eoStandardVelocity.h operator()", "eo/src/eoFixedInertiaWeightedVelocity.h operator()", "eo/src/eoConstrictedVelocity.h operator()"]}
{"id": "C144", "title": "Linearly decreasing inertia weight", "statement": "While the counter does not exceed the stop value the weight goes linearly from the initial to the final value, never increasing. (Beyond it the unsigned difference wraps and the weight becomes greater than the initial one by a huge factor.)", "quantifier": "all stop values, initial and final values, counters", "why_tests_cant": "infinitely many inputs; a test samples a few", "anchors": ["eo/src/eoLinearDecreasingWeightUp.h operator()"]}
{"id": "C145", "title": "Decaying velocity bound", "statement": "The maximum at iteration t is documented as (1-(t/Nt)^alpha) times the initial maximum. (It is multiplied by this factor at every call, that is for every particle in every generation: after a run the maximum is the product of all factors to the power of the number of particles.)", "quantifier": "all bounds, numbers of particles and iterations", "why_tests_cant": "infinitely many inputs; a test samples a few", "anchors": ["eo/src/eoRealBoundModifier.h eoExpDecayingBoundModifier"]}
{"id": "C146", "title": "Uniform mutations of real vectors: how far, inside what, and the scaling", "statement": "eoUniformMutation moves a chosen component by at most its range and keeps the others, answers true exactly if some component was chosen, refuses a vector of another size than its bounds, and never takes a vector that is inside its bounds out of them. A component that is outside by more than the range is not brought back. With one epsilon and bounded variables the range used is epsilon squared (not epsilon) times the width of the interval. eoDetUniformMutation without bounds does not move the chosen components but replaces them by numbers in [-epsilon, epsilon]; with bounds it stays inside.", "quantifier": "For all vectors, bounds (intervals, half-lines, none), ranges, choices of components and draws of the generator.", "why_tests_cant": "infinitely many inputs; a test samples a few Whether a component leaves its bounds or is scaled wrongly depends on reals that a test samples only finitely often; the squared epsilon is invisible with epsilon 1.", "anchors": ["eo/src/es/eoRealOp.h: eoUniformMutation, eoDetUniformMutation", "eo/src/utils/eoRealVectorBounds.h"]}
{"id": "C147", "title": "Crossovers of real vectors stay inside the bounds and keep what they promise", "statement": "Children of eoSegmentCrossover lie on the line through their parents, symmetric about the middle, at most alpha beyond, and inside the bounds if the parents are. Children of eoHypercubeCrossover are inside the bounds and inside the parents' box stretched by alpha, and the answer is true exactly if the parents differ. eoRealUXover exchanges exactly the chosen components and answers true exactly if the parents changed; parents of different sizes are not refused but read out of range. Children of eoSBXCrossover keep the middle of the parents, their distance is scaled by the spread, which is at most one exactly for the lower half of the draws, and after folding they are in the bounds.", "quantifier": "For all parents, bounds, values of alpha and eta not negative, and draws of the generator.", "why_tests_cant": "infinitely many inputs; a test samples a few The restriction of the factor by all variables together is a condition on all components at once that random tests do not exercise at the boundary.", "anchors": ["eo/src/es/eoRealOp.h: eoSegmentCrossover, eoHypercubeCrossover, eoRealUXover", "eo/src/es/eoSBXcross.h: eoSBXCrossover"]}
{"id": "C148", "title": "Normal mutations: the one-fifth rule follows the last generations, the unbounded vector version never mutates", "statement": "eoNormalVecMutation built without bounds either reads a standard deviation out of range or returns the vector as it was, for every vector, because its constructor builds a vector of zeros whose length is the integer part of sigma. At the end of each generation eoOneFifthMutation divides the step size by the factor exactly if more than the threshold of the mutations of the last windowSize generations were successes and multiplies it otherwise; the step size stays positive; without any mutation it decays geometrically.", "quantifier": "For all vectors, choices and draws; for all window sizes, thresholds, factors in (0,1) and all sequences of generations with any outcomes.", "why_tests_cant": "infinitely many inputs; a test samples a few The circular window over an unbounded number of generations and a vector whose length silently depends on a standard deviation are not settled by examples.", "anchors": ["eo/src/es/eoNormalMutation.h: eoNormalVecMutation, eoOneFifthMutation"]}
{"id": "C149", "title": "Self-adaptive mutation: positive standard deviations, bounds, and which rotations are really done", "statement": "After eoEsMutate every standard deviation is at least 1e-40, a component moves by its new standard deviation times its draw, the vector is in its bounds and all angles are in [-pi, pi]. The rotations keep the length of the step; but the first variable is never rotated, the first n-1 of the n(n-1)/2 angles are never used (with two variables there is no correlation at all), and an angle that leaves the range is shifted by multiples of pi, not 2 pi, which negates the rotation when the multiple is odd.", "quantifier": "For all numbers of variables, vectors, standard deviations, angles, bounds and draws.", "why_tests_cant": "infinitely many inputs; a test samples a few The length of the step, the unused angles and the first variable are statements about every dimension and every angle.", "anchors": ["eo/src/es/eoEsMutate.h: eoEsMutate::operator()", "eo/src/es/eoEsFull.h", "eo/src/es/eoEsStdev.h"]}
{"id": "C150", "title": "Recombination in evolution strategies stays between the parents", "statement": "eoDoubleExchange and eoDoubleIntermediate give a number between the two parents' numbers. Hence each component, standard deviation and angle of a child of eoEsStandardXover is between those of its parents (positive standard deviations stay positive), the answer is true whenever the vector changed, and a child of eoEsGlobalXover is inside every box that contains the population. A shorter second parent is read out of range.", "quantifier": "For all parents and populations, all draws and all choices of individuals per component.", "why_tests_cant": "infinitely many inputs; a test samples a few The statement quantifies over all reals and all draws of individuals per component.", "anchors": ["eo/src/es/eoRealAtomXover.h: eoDoubleExchange, eoDoubleIntermediate", "eo/src/es/eoEsStandardXover.h", "eo/src/es/eoEsGlobalXover.h"]}
{"id": "C151", "title": "CMA-ES: the weights of the parents fit the number of parents only by default", "statement": "With the default number of parents the recombination weights of eo::CMAParams are positive, sum to one and do not grow with the rank, the effective number of parents is between 1 and their number, and every coordinate of the new mean is within the range of the parents. The array of weights keeps the default size when the user sets --mu: with more parents it is read beyond its end, with logarithmic weights and at least two parents fewer the weights in use do not sum to one (identical parents do not yield their own position as the mean), and in eight dimensions a single parent has a negative weight. The schemes documented as equal and linear are exchanged.", "quantifier": "For all dimensions, numbers of parents and offspring, weighting schemes and populations.", "why_tests_cant": "infinitely many inputs; a test samples a few The sum over an arbitrary number of logarithms, and the mismatch of two sizes set at different places.", "anchors": ["eo/src/es/CMAParams.cpp: CMAParams::CMAParams, defaults", "eo/src/es/CMAState.cpp: reestimate"]}
{"id": "C152", "title": "CMA-ES: the distribution stays a distribution for ever", "statement": "For parameters with as many parents as weights the learning rate is below one, and over any number of generations, whatever the parents, the momentum removal and the numerical tests do, as long as eigensystems are found (after any number of failed tries): the covariance matrix is symmetric positive definite, the step size and the scalings are positive, the coordinate system is orthonormal and rebuilds the matrix, samples have exactly this covariance, and the condition number is at most 1/epsilon + 1.", "quantifier": "For all dimensions, parameters, numbers of generations, populations, outcomes of floating-point tests and of the eigenvalue solver.", "why_tests_cant": "infinitely many inputs; a test samples a few An invariant of a nonlinear iteration over real matrices of every size.", "anchors": ["eo/src/es/CMAState.cpp: reestimate, treatNumericalIssues, updateEigenSystem, sample", "eo/src/es/eoCMABreed.h: eoCMABreed"]}
{"id": "C153", "title": "CMA-ES: the first generation inflates the covariance", "statement": "In the first generation the test on the path length divides by zero and fails, so the path of the covariance stays zero, and the correction for that case is added without the learning rate: the variance in every direction grows, wherever the parents are; parents all at the initial mean multiply the matrix by a factor above one where the rule quoted in the comment shrinks it.", "quantifier": "For all dimensions at least one, all populations, all numbers of parents up to (3n+1)/2, which the default always meets.", "why_tests_cant": "infinitely many inputs; a test samples a few Growth in every direction for every dimension and population.", "anchors": ["eo/src/es/CMAState.cpp: reestimate"]}
{"id": "C154", "title": "Parse trees: numbers, iterators and sizes agree with the structure", "statement": "In a parse tree whose remembered sizes are right, tree[0] \u2026 tree[size()-1] are all nodes, each once, in the documented postfix order; the iterators visit the same nodes in the same order and stop; selecting by cumulative size takes each subtree with a weight equal to its size. Assigning a subtree of another tree, at any place, puts a copy there, leaves everything beside it alone and makes all sizes and depths right again; so does assigning a node of the same arity. Assigning a subtree of the same tree below the root, as in the documented example tree[2] = tree[0], does not update the sizes above: the size stays 5 for a tree of 3 nodes. Assigning a node of another arity leaves a depth of 1 for a tree of two levels.", "quantifier": "For all arities, trees, places, nodes and subtrees.", "why_tests_cant": "infinitely many inputs; a test samples a few Trees of every shape and arity, and every place in them.", "anchors": ["eo/src/gp/parse_tree.h: subtree, parse_tree, base_iterator, select_cumulative, updateAfterInsert, operator="]}
{"id": "C155", "title": "Parse trees are rebuilt from their postfix sequences", "statement": "A sequence of nodes makes a tree exactly when it ends with the nodes of a tree in postfix order (what comes before is silently ignored), and that tree is the only one; so printing and reading returns the same tree, and pushing the nodes one by one into a cleared tree gives it too, and nothing else does. A tree just constructed is not empty: pushing into it leaves a spurious node and valid() is false. After assigning a smaller subtree of the same tree the printed size exceeds the number of printed nodes, so the text cannot be read back.", "quantifier": "For all arities, sequences and trees.", "why_tests_cant": "infinitely many inputs; a test samples a few Uniqueness over all sequences is a parsing theorem.", "anchors": ["eo/src/gp/parse_tree.h: subtree::init, push_back, clear, empty, valid", "eo/src/gp/eoParseTree.h: printOn, readFrom"]}
{"id": "C156", "title": "Operators on parse trees respect the maximum size and lose nothing else", "statement": "Pruning terminates with a tree of at most the maximum size, namely the first that fits on the way from the root through first arguments; trees that fit are untouched. Subtree crossover and the branch, expansion and collapse mutations always succeed, return well-formed trees within the maximum, and without pruning crossover conserves the nodes of the two parents together. Collapsing never enlarges a tree, expanding always does, point mutation changes exactly one node and keeps shape, size and depth, hoisting returns a subtree.", "quantifier": "For all trees, arities, maximum sizes and random choices.", "why_tests_cant": "infinitely many inputs; a test samples a few Every tree, place and limit, and termination of the pruning loop.", "anchors": ["eo/src/gp/eoParseTree.h: pruneTree", "eo/src/gp/eoParseTreeOp.h: eoSubtreeXOver, eoBranchMutation, eoPointMutation, eoExpansionMutation, eoCollapseSubtreeMutation, eoHoistMutation"]}
{"id": "C157", "title": "Initial trees have the promised depth; half and half uses every depth and method equally", "statement": "With at least one terminal (and one function in full mode) the depth initialiser always makes a well-formed tree of the given nodes no deeper than asked; in full mode every terminal is on the last level. Without terminals it never makes a tree, and in full mode without functions it reads beyond the nodes. In ramped half and half with maximum depth m at least 2, any cycle of 2(m-1) trees uses each method with each depth from 2 to m exactly once. The population function makes exactly as many trees as asked.", "quantifier": "For all node sets, depths, random streams and numbers of trees.", "why_tests_cant": "infinitely many inputs; a test samples a few Every random stream and depth; the cycle for every maximum depth.", "anchors": ["eo/src/gp/eoParseTreeDepthInit.h: eoParseTreeDepthInit, generate, eoInitRampedHalfAndHalf"]}
{"id": "C158", "title": "Strongly typed trees stay well typed, except under point mutation", "statement": "Trees made by the typed initialiser are well typed, of the type asked for and not too deep; typed crossover keeps both trees well typed and of their types, conserves nodes and leaves the trees alone only if no node has a partner; typed hoisting keeps the type. The typed point mutation compares types of results only and can make an ill-typed tree; the maximum size of the typed crossover is ignored (two trees of n+1 nodes can give one of 2n+1); a type no node returns makes the initialiser read an element of an empty vector.", "quantifier": "For all typed node sets, trees, random choices and depths.", "why_tests_cant": "infinitely many inputs; a test samples a few Typing is an invariant over trees of every shape.", "anchors": ["eo/src/gp/eoStParseTreeDepthInit.h: eoStParseTreeDepthInit", "eo/src/gp/eoStParseTreeOp.h: eoStSubtreeXOver, eoStPointMutation, eoStHoistMutation, get_possible_nodes"]}
{"id": "C159", "title": "The bounded archive of two minimised objectives keeps a front and drops the least volume", "statement": "After any sequence of offers the members number at most the larger of 2 and the maximum, none is weakly dominated by another, and they are sorted by the second objective. The fitness of an inner member is exactly the hypervolume that would be lost without it (for every reference point), and the hypervolume is the area of the dominated region. While there is room the members are exactly the best vectors among those offered. The answer is true exactly when the vector is new and was kept; when it is false nothing changes. A full archive gives up an inner member whose loss is least, the newcomer included; the best value of either objective never gets worse; the hypervolume of the archive never decreases for a newcomer inside the front. Two calls are undefined: a full archive and a newcomer just before the last member (end() is read), and a full archive in which every inner loss is at least the maximal value (an iterator without value is used).", "quantifier": "For all sequences of offers, maximal sizes, objective values and reference points.", "why_tests_cant": "infinitely many inputs; a test samples a few The contributions are measures of planar regions, for every front and reference point.", "anchors": ["moeo/src/archive/moeo2DMinHypervolumeArchive.h: moeo2DMinHypervolumeArchive::operator(), insert, filter, filterbis, compute, computeFitness"]}
{"id": "C160", "title": "The archive of hyperboxes keeps non-dominated members that represent all others up to epsilon", "statement": "After any sequence of offers the members lie between ideal and nadir, and after an insertion these are exactly the best and worst values. With two objectives and epsilons of at most one no member ever dominates another; with any number of objectives this holds across a call when every objective takes two values. Unless the newcomer is refused for exceeding nadir, every former member and the newcomer has a representative among the new members that is worse by less than epsilon times the range in every objective. With three objectives a newcomer dominated by nobody can be refused; the answer can be true though nothing was inserted; with a constant objective a dominated newcomer can be inserted; the same vector can be kept twice.", "quantifier": "For all sequences of offers, numbers and directions of objectives, epsilons, and choices between members of one box.", "why_tests_cant": "infinitely many inputs; a test samples a few Representation is a statement about every sequence of offers.", "anchors": ["moeo/src/archive/moeoEpsilonHyperboxArchive.h: operator(), hyperbox, changeBounds, changeBoundsByDeleting, recalculateBounds", "moeo/src/utils/moeoObjectiveVectorNormalizer.h: update_by_min_max, operator()"]}
{"id": "C161", "title": "The SPEA2 archive has its size, takes members from nowhere else, and truncates as published", "statement": "The archive holds min(maximum, former size + offers) individuals, never fewer than before, each a former member or a newcomer, none twice. While there is room the best newcomers enter and the surplus is dropped. When it is full the worst dominated members give way to better newcomers one by one, and the remaining non-dominated newcomers are thinned out together with the members by removing, one after the other, the individual whose sorted distances to the others are lexicographically least. If the best member is not dominated, the non-dominated newcomers outnumber the dominated members, and fitness plus diversity agree with fitness on who is dominated, no dominated member is left. Otherwise the best member stays even if it is dominated while a non-dominated newcomer is discarded. Offering nothing to a full archive, or one individual that should replace dominated members only, reads beyond the population.", "quantifier": "For all archives, populations, fitness and diversity values, distances and sorting functions.", "why_tests_cant": "infinitely many inputs; a test samples a few The thinning is a sequence of lexicographic minima over every set of candidates.", "anchors": ["moeo/src/archive/moeoSPEA2Archive.h: moeoSPEA2Archive::operator(), Cmp, CmpVector, CmpPair"]}
{"id": "C162", "title": "Worths of the non-dominated sorting follow the Pareto fronts, except for fronts of one individual", "statement": "For any strict partial order and penalties that are not negative, the assignment ends, worths are not negative, a dominating individual is worth strictly more, the integer part gives the Pareto front, and inside a front a smaller penalty is worth more. The two-objective algorithm gives the same for every combination of directions and repeated vectors, when values are equal or differ by the tolerance; with the flag against clones one individual of each vector keeps its front and the others go to the last front there can be. One objective gives the worths 1 to N by rank. The penalties by sharing are never negative. The crowding penalties are not negative on fronts of two or more, zero for those extreme on every objective and at least one for those inside on some objective; on a front of one individual they are negative and the individual is ranked behind the next front, so one that dominates all others can be worth less than all of them.", "quantifier": "For all population sizes, fitness vectors, numbers of objectives, directions, penalties and sorting functions.", "why_tests_cant": "infinitely many inputs; a test samples a few The failure needs a front of exactly one member.", "anchors": ["eo/src/eoNDSorting.h: eoNDSorting::calculate_worths, one_objective, two_objectives, Sorter, m_objectives, rank_to_worth, eoNDSorting_I::niche_penalty, eoNDSorting_II::niche_penalty"]}
{"id": "C163", "title": "Cached worths are those of the last population, until it is truncated", "statement": "If worths are a function of the fitnesses, after any sequence of calls the worths are those of the population of the last call. Sorting by worth rearranges population, worths and cache alike and the next call computes nothing. After truncation through the object the next call computes nothing either: the worths remain those of the larger population.", "quantifier": "For all sequences of populations, worth functions and sorts.", "why_tests_cant": "infinitely many inputs; a test samples a few The property quantifies over all histories of an object with a cache.", "anchors": ["eo/src/eoPerf2Worth.h: eoPerf2WorthCached::operator(), sort_pop, resize, compare_worth"]}
{"id": "C164", "title": "A feasible dual fitness is always better, and dual fitnesses are totally preordered", "statement": "If values are compared by a strict weak order, dual fitnesses whose feasibility was given are too: a feasible one is better than an infeasible one whatever the values, and inside a class the value decides. The other comparison operators agree. The best individual of a population with a feasible individual is feasible and no feasible one has a better value; a population sorted from the best has its feasible individuals first. Splitting a population by feasibility keeps everybody once and in order; merging a sorted population gives it back. Arithmetic between fitnesses is feasible exactly when all operands are. What is printed is read back if the feasibility was given. Not so: `x + scalar` modifies x; the mark that feasibility was given is overwritten by the right operand; the average of a population is never feasible; a fitness without feasibility is printed in a form that cannot be read.", "quantifier": "For all values, comparisons, populations, scalars and streams.", "why_tests_cant": "infinitely many inputs; a test samples a few The order axioms quantify over all triples.", "anchors": ["eo/src/eoDualFitness.h: eoDualFitness, eoDualPopSplit, eoDualStatSwitch", "eo/src/utils/eoFeasibleRatioStat.h: eoFeasibleRatioStat", "eo/src/utils/eoStat.h: eoAverageStat"]}
{"id": "C165", "title": "An assembled fitness is compared by its first term; terms can only be appended after their names were declared", "statement": "Among fitnesses with at least one term the comparison is a strict weak order and depends on the first term only; with a fitness without terms it is not a strict weak order. Naming a term in range changes that name only; out of range it always writes past the end of the shared vector of names, so appending a term is safe exactly when its name exists already. Resizing one fitness changes names and default size for all. Reading gives back what was printed exactly into an object with as many terms; with another number of terms the printed fitness is never obtained. The average of a term is taken over individuals that did not fail; whether the term exists is looked at on the first individual only.", "quantifier": "For all fitnesses, comparisons, name vectors, streams and populations.", "why_tests_cant": "infinitely many inputs; a test samples a few The out-of-bounds write is silent in most runs.", "anchors": ["eo/src/eoScalarFitnessAssembled.h: eoScalarFitnessAssembledTraits::setDescription, eoScalarFitnessAssembled::push_back, operator<, operator=, resize, operator<<, operator>>", "eo/src/utils/eoAssembledFitnessStat.h: eoAssembledFitnessAverageStat, eoAssembledFitnessBestStat"]}
{"id": "C166", "title": "Order statistics of a population have their rank", "statement": "The element at a position, or at a ratio below one of the population, has exactly that rank counted from the worst; the ratio one, an empty population or a position out of range stop the program. The quartiles exist for every population that is not empty, with ranks n/4 and 3(n/4); the interquartile range is not negative when maximising and never positive when minimising. The n-th best fitness has at most n better ones; the position equal to the size is read out of bounds instead of raising the exception. The best individual kept over any sequence of populations is one of their individuals, no individual is better, and it changes only for a strictly better one.", "quantifier": "For all populations, sequences of populations, strict weak orders of fitnesses, positions and ratios, and every selection function with the contract of std::nth_element.", "why_tests_cant": "infinitely many inputs; a test samples a few", "anchors": ["eo/src/utils/eoStat.h: eoNthElementFitnessStat, eoNthElementStat, eoInterquartileRangeStat, eoBestIndividualStat", "eo/src/utils/eoPopStat.h: eoPopStat, eoSortedPopStat"]}
{"id": "C167", "title": "Average, deviation and fitness-distance correlation", "statement": "The average lies between any bounds of the fitnesses. For two or more individuals the deviation is that of a sample, the root is always taken of a number that is not negative, and the deviation is zero exactly when all fitnesses are equal; for fewer it is not a number. The fitness-distance correlation lies between -1 and 1, is not a number exactly when all distances or all fitnesses are equal, and is 1 or -1 when the fitness is an affine function of the distance; distances are measured to the given optimum or to a best individual of the population.", "quantifier": "For all populations of real fitnesses, all distances and orders (exact arithmetic).", "why_tests_cant": "infinitely many inputs; a test samples a few Inequalities between real numbers for all inputs.", "anchors": ["eo/src/utils/eoStat.h: eoAverageStat, eoSecondMomentStats, eoAverageSizeStat", "eo/src/utils/eoFDCStat.h: eoFDCStat::operator()"]}
{"id": "C168", "title": "The distances are metrics between vectors of one size; diversity vanishes only for identical individuals", "statement": "Euclidean, absolute-difference and Hamming distances are metrics on vectors of the same size; the distance of fitnesses is their absolute difference. With sizes that differ the longer first vector reads out of bounds and a prefix is at distance zero from its extensions. The diversity of a population of one size is not negative, zero exactly when all individuals are equal, and at most one half for bit strings; with two sizes it reads out of bounds, and with genes of an unsigned type differences wrap around.", "quantifier": "For all vectors and populations (exact arithmetic).", "why_tests_cant": "infinitely many inputs; a test samples a few The triangle inequality quantifies over all triples of vectors.", "anchors": ["eo/src/utils/eoDistance.h: eoQuadDistance, eoL1Distance, eoHammingDistance, eoFitnessDistance", "eo/src/utils/eoStat.h: eoDistanceStat::operator(), distance"]}
{"id": "C169", "title": "Dominance-based local search ends with a Pareto local optimum set", "statement": "When the search ends, the archive holds mutually non-dominated, rightly evaluated members and covers the initial population; every neighbour of every member marked visited is dominated by, or equal in vector to, a member; if the user's continuator did not stop it, every member is marked. This holds for the four explorers, any selection and any order of the neighbours. With finitely many attainable vectors, a neighbour for every solution, an archive that keeps the first of equal vectors, the exhaustive or first-improving explorer and either selection of the library, the search ends by itself within 2k+2 iterations for k vectors. Selections return unvisited members only, none twice, and at least one while one is left.", "quantifier": "For all problems, neighbourhoods, orders of neighbours (changing from call to call), shuffles, continuators and initial populations.", "why_tests_cant": "infinitely many inputs; a test samples a few Local optimality of the final archive and termination quantify over all runs.", "anchors": ["moeo/src/algo/moeoUnifiedDominanceBasedLS.h: moeoUnifiedDominanceBasedLS::operator()", "moeo/src/algo/moeoPLS1.h: moeoPLS1", "moeo/src/algo/moeoPLS2.h: moeoPLS2", "moeo/src/explorer/moeoExhaustiveNeighborhoodExplorer.h: explore", "moeo/src/explorer/moeoFirstImprovingNeighborhoodExplorer.h: explore", "moeo/src/explorer/moeoNoDesimprovingNeighborhoodExplorer.h: explore", "moeo/src/explorer/moeoSimpleSubNeighborhoodExplorer.h: explore", "moeo/src/selection/moeoExhaustiveUnvisitedSelect.h: operator()", "moeo/src/selection/moeoNumberUnvisitedSelect.h: operator()"]}
{"id": "C170", "title": "Where dominance-based local search never ends, and what its hybrids do", "statement": "The search never stops by itself: with an undominated initial solution without neighbours; with the explorer of at most `number` neighbours when every solution has more; with the default archive (newcomers replace members of equal vector) on two neighbours of equal vectors; with the explorer that stops at the first neighbour not dominated, in a fixed order. Individuals that carry the mark of an earlier search are returned without exploration. The hybrid mutation replaces the individual by a member of its archive that the individual does not dominate and always answers that nothing changed; its archive is not emptied, so an individual it dominates is replaced by a member of an earlier search without exploration. The hybrid updater leaves a global archive of mutually non-dominated members covering what the global and the inner archive covered.", "quantifier": "For all problems, selections and orders meeting the stated conditions, all numbers of iterations and all archives; two of the endless runs are concrete.", "why_tests_cant": "Never ending is a statement about all numbers of iterations; the others quantify over all archives and runs.", "anchors": ["moeo/src/algo/moeoUnifiedDominanceBasedLS.h: moeoUnifiedDominanceBasedLS::operator(), moeoContinue::operator()", "moeo/src/hybridization/moeoDMLSMonOp.h: moeoDMLSMonOp::operator()", "moeo/src/hybridization/moeoDMLSGenUpdater.h: moeoDMLSGenUpdater::operator()", "moeo/src/core/MOEO.h: MOEO::flag, MOEO::invalidate", "moeo/src/archive/moeoArchive.h: moeoArchive::update"]}
{"id": "C171", "title": "NSGA-II: one generation and whole runs", "statement": "Each generation of moeoNSGAII (on at least one individual) keeps as many individuals as before out of parents and offspring; nobody left out dominates somebody kept; either everybody kept is non-dominated in parents and offspring or every non-dominated one is kept. If at every generation the first front of parents and offspring fits in the population, the final population covers every vector ever evaluated. Without that room a run can end with a population whose members are dominated by vectors evaluated (and forgotten) before.", "quantifier": "for every strict partial order as comparator (more than two objectives), any crowding values, any sort by fitness then diversity, any offspring, stopping criterion, population size and number of generations", "why_tests_cant": "infinitely many inputs; a test samples a few", "anchors": ["moeo/src/algo/moeoNSGAII.h: moeoNSGAII::operator()", "moeo/src/replacement/moeoElitistReplacement.h: operator()", "moeo/src/fitness/moeoDominanceDepthFitnessAssignment.h: operator(), mObjectives"]}
{"id": "C172", "title": "Archive-based algorithms: SEEA, ASEEA, moeoEasyEA", "statement": "A finished run of moeoSEEA or moeoASEEA on an empty archive leaves in the archive exactly the non-dominated vectors among the initial population and all offspring. moeoSEEA never changes the population; built from a transform it never applies the transform, and the archive stays (up to order) what the initial population gave. moeoASEEA empties the user's population; its stopping criterion sees the empty population after the first generation. moeoDetArchiveSelect delivers the whole archive, max members at different positions, or min members cyclically, and divides by zero on an empty archive when min is positive. moeoEasyEA returns a population of the initial size or throws; without the flag it assigns fitness once.", "quantifier": "for every archive configuration with a strict partial order, any operators, draws, stopping criteria, sizes and numbers of generations", "why_tests_cant": "infinitely many inputs; a test samples a few", "anchors": ["moeo/src/algo/moeoSEEA.h: moeoSEEA, operator()", "moeo/src/algo/moeoASEEA.h: operator()", "moeo/src/selection/moeoDetArchiveSelect.h: operator()", "moeo/src/selection/moeoSelectFromPopAndArch.h: operator()", "moeo/src/algo/moeoEasyEA.h: operator()"]}
{"id": "C173", "title": "Saving and loading the state of a run", "statement": "eoState::load, in the default and in the JSON format, never restores any registered object, whatever the file contains: it ends without error and leaves every object as it was (an empty file is an error). In particular what save wrote is not restored. The cause is a newline at the end of the tag looked for in a line without newline: with the tag `}` alone, loading what was saved gives every object registered under a saved name exactly what was printed for it. Objects are registered under different names: the class name, with the smallest free number appended if taken; saving writes all objects in that order.", "quantifier": "for every collection of registered objects, every print and read function, every text; the positive part for names without braces and newlines and contents that do not contain section lines or comments", "why_tests_cant": "infinitely many inputs; a test samples a few", "anchors": ["eo/src/utils/eoState.cpp: load, save, registerObject, createObjectName", "eo/src/utils/eoState.h: formatLatex, formatJSON, getCommentString"]}
{"id": "C174", "title": "Parameters on the command line and in a parameter file", "statement": "For arguments that are plain words the value of a parameter is that of the last word with its short name and only without one that of the last word with its long name, even if that comes later; words of the parameter file (@file) are read before the command line, so a short name in the file beats a long name on the command line. An argument with a blank counts as two arguments: values stop at the first blank. Arguments starting with # are ignored; a lone dash ends the reading and asks for help. Help is shown exactly if asked for, if a required parameter was missing or if a name belongs to no parameter. Reading what the parser prints gives back exactly the parameters the user had set, with their values if these have no blanks; of values with blanks only the first word.", "quantifier": "for all lists of arguments, parameter files, parameters, names and values (without white space, comment characters or section words where said)", "why_tests_cant": "infinitely many inputs; a test samples a few", "anchors": ["eo/src/utils/eoParser.cpp: eoParser::eoParser, getValue, readFrom, printOn, userNeedsHelp", "eo/src/utils/eoParser.h: isItThere"]}
{"id": "C175", "title": "Texts of parameter values", "statement": "Setting a parameter of type std::vector<double> from its own printed value loses the first digit of the first element (one significant character is consumed before every element), so a first element of two digits or more is not restored, and a vector of one one-digit element keeps what it held. A keyword with arguments (eoParamParamType) is read back as printed if arguments are non-empty and without delimiters; without the closing parenthesis the reading never ends; blanks before an argument give that argument a wrong tail.", "quantifier": "for all vectors of natural numbers and decimal notations, all keywords and argument lists", "why_tests_cant": "infinitely many inputs; a test samples a few", "anchors": ["eo/src/utils/eoParam.h: eoValueParam<std::vector<double>>::getValue, setValue, eoParamParamType::printOn, readFrom"]}
{"id": "C176", "title": "Sequence and seeds of the random number generator", "statement": "The numbers eoRng::rand returns after seeding are the tempered outputs of the Mersenne-type recurrence x(k+N) = x(k+M) xor twist(x(k), x(k+1)) started from the multiplicative seeding sequence, for ever, across all block boundaries. Two seeds that agree modulo 2^31 give the same infinite sequence (the highest bit of the 32-bit seed is lost); any other two seeds already differ among the first N numbers.", "quantifier": "for all seeds and any number of calls", "why_tests_cant": "infinitely many inputs; a test samples a few", "anchors": ["eo/src/utils/eoRNG.h: eoRng::rand, restart, initialize, reseed"]}
{"id": "C177", "title": "Ranges and frequencies of the random number generator", "statement": "uniform(m) lies in [0, m) and uniform(min, max) in [min, max) in exact arithmetic; random(m) is below m for every rounding of the product with relative error 2^-53, and every value comes from at least floor(2^32/m) of the 2^32 words and at most one more; flip(p) is true for exactly ceil(p 2^32) words; binomial(n,p) lies in 0..n, is 0 for p <= 0 and n for p >= 1; random(min,max) lies in min..max-1. rng.powerlaw(min,max,n) draws its uniform number from [min,max) instead of [0,1): for a draw above 1 the base of the root is not positive or the result exceeds max.", "quantifier": "for all words drawn, all ranges, all probabilities", "why_tests_cant": "infinitely many inputs; a test samples a few", "anchors": ["eo/src/utils/eoRNG.h: uniform, random, flip, binomial, powerlaw, random_generator"]}
{"id": "C178", "title": "Reseeding, saving and restoring the random number generator", "statement": "After reseed and clearCache every sequence of calls gives the same results whatever the generator did before. With nothing cached two successive normal deviates are the two numbers made from the first accepted pair of words, and the second draws no word. Without clearCache a normal deviate cached before the reseed is returned first. A generator printed and read back gives the same results for every sequence of calls if no normal deviate was cached; if one was, the next normal deviate is the printed (rounded) one and everything else is the same.", "quantifier": "for all generators reached by any calls, all seeds, all sequences of later calls, all roundings of the printed number", "why_tests_cant": "infinitely many inputs; a test samples a few", "anchors": ["eo/src/utils/eoRNG.h: reseed, clearCache, printOn, readFrom, normal"]}
{"id": "C179", "title": "Bit mutations with a random number of flips", "statement": "The standard bit mutation flips as many different bits as the binomial draw has successes and returns true exactly if the string changed; without a given rate the rate is one over the length of the first string it ever saw, also for strings of other lengths. The uniform variant flips fewer than n bits, never all. The conditional variant flips at least one bit if it ends, and never ends with a negative rate; the shifted one always flips at least one. The normal variant is undefined for deviates of -1 or less, otherwise flips fewer than n. The fast variant uses a rate i/n with 1 <= i <= n/2 (1 for a single bit). The bucket variant draws from [start,end), or end if the bucket is empty.", "quantifier": "for all strings, rates, random words and positions drawn", "why_tests_cant": "infinitely many inputs; a test samples a few", "anchors": ["eo/src/ga/eoStandardBitMutation.h: eoStandardBitMutation, eoUniformBitMutation, eoConditionalBitMutation, eoShiftedBitMutation, eoNormalBitMutation, eoFastBitMutation, eoBucketBitMutation"]}
{"id": "C180", "title": "The quad tree index keeps the non-dominated vectors, up to two objectives", "statement": "After any sequence of submissions to the quad tree the stored objective vectors were submitted, are pairwise incomparable, and with at most two objectives every submitted vector has a stored one at least as good; a vector is accepted exactly if no submitted one is at least as good, and the vectors reported as removed are exactly the stored ones it dominates. With any number of objectives a vector is rejected only if a submitted one is at least as good. With three objectives a stored non-dominated vector can be lost, and a vector it dominates is then accepted; with the loops of the removal running one slot further nothing is lost for any number of objectives.", "quantifier": "for all numbers of objectives, all sequences of vectors; witness with three objectives for the loss", "why_tests_cant": "infinitely many inputs; a test samples a few", "anchors": ["moeo/src/scalarStuffs/archive/moeoQuadTree.h: insert, insert_aux, replace, reconsider, reinsert, remove, test1, test2, k_succ"]}
{"id": "C181", "title": "The archive on the quad tree removes the wrong solution", "statement": "If no submitted vector dominates an earlier one, the indexed archive on the quad tree is right: incomparable submitted vectors, one at least as good as each submitted one. If a new vector dominates exactly one of several incomparable ones and that is not the first, the archive afterwards holds both the new one and the dominated one, and with two objectives it has dropped the non-dominated one submitted before the dominated one. The tree's update of an index finds only the vector at the root and ignores every other stored vector. moeoQuadTreeArchive stores nothing and always answers false.", "quantifier": "for all numbers of objectives and all sequences of vectors meeting the stated relations", "why_tests_cant": "infinitely many inputs; a test samples a few", "anchors": ["moeo/src/scalarStuffs/archive/moeoIndexedArchive.h: operator(), apply_modif", "moeo/src/scalarStuffs/archive/moeoQuadTree.h: update, find_node, insert", "moeo/src/scalarStuffs/archive/moeoQuadTreeArchive.h: operator()"]}
{"id": "C182", "title": "The sorted index of two objectives keeps exactly the non-dominated vectors", "statement": "Submitting a vector to the sorted index rejects it exactly if a stored one is at least as good, and then nothing changes; otherwise the reported removals are exactly the stored vectors it dominates, the index afterwards holds the others and the new one and stays sorted. Without the wish to insert, the answer and the report are the same and the index is unchanged. After any submissions the stored vectors were submitted, are incomparable, cover every submitted one, and a further one is accepted exactly if no submitted one is at least as good.", "quantifier": "for all sorted contents of the index and all sequences of two-objective vectors", "why_tests_cant": "infinitely many inputs; a test samples a few", "anchors": ["moeo/src/scalarStuffs/archive/moeoQuickUnboundedArchiveIndex.h: operator(), insert, CompareByLast"]}
{"id": "C183", "title": "The archive on the sorted index loses non-dominated solutions", "statement": "If no submitted vector dominates an earlier one, the indexed archive on the sorted index is right. If a new vector dominates only the last of several incomparable ones, the archive is right but the dominated vector is in the index again, with the place of the new one. Four vectors can then leave an archive without a non-dominated one, and four others make the archive access a place it does not have (undefined).", "quantifier": "for all sequences of two-objective vectors meeting the stated relations; concrete sequences for the loss and the bad access", "why_tests_cant": "infinitely many inputs; a test samples a few", "anchors": ["moeo/src/scalarStuffs/archive/moeoIndexedArchive.h: operator(), apply_modif", "moeo/src/scalarStuffs/archive/moeoQuickUnboundedArchiveIndex.h: update, insert"]}
{"id": "C184", "title": "The normaliser maps the objectives of a population onto a common range", "statement": "A normaliser made of a population with a positive maximum maps every objective of every member into [0, maximum], hits 0, hits the maximum unless the objective is constant, and maps a constant objective to 0; with maximum 0 the greatest amplitude of the objectives takes its place. It keeps the order of every objective; made of a best and a worst vector it maps the best to 0 and the worst to the maximum, reversing the order if better is greater. After change_max it is the normaliser with the new maximum for every objective that is not constant. After update_by_bounds the upper bound goes to 100 whatever the maximum is, and a later change_max scales that by the ratio of the maxima. After update_by_pop the new population is mapped onto the range up to the kept maximum, and after update_by_min_max the new best goes to 0 and the new worst to the maximum, whatever the normaliser was made of.", "quantifier": "for all populations that are not empty, numbers of objectives, bounds, maxima and vectors", "why_tests_cant": "infinitely many inputs; a test samples a few", "anchors": ["moeo/src/utils/moeoObjectiveVectorNormalizer.h: make_scale_from_pop, make_scale_from_bounds, make_scale_from_minmax, operator(), update_by_bounds, change_max"]}
{"id": "C185", "title": "Scalar fitness values agree with dominance, where they do", "statement": "With weights that are not negative the aggregated fitness of a vector at least as good is at least as great, and greater if it is better on an objective of positive weight; so a best one under positive weights is dominated by none. The fitness with constraints is monotone too, equals the weighted normalised objective to optimise if all constraints are met, and a violation makes it worse than that of a feasible vector with the same objective, but by a finite penalty. With too few weights both are 0 for all. The achievement distance is the greatest weighted difference and, like the augmented one, never grows when a vector gets better; a least one under positive weights has no member better everywhere. The augmented Chebychev distance is monotone only if the reference is at least as good as the vectors. The exponent of the weighted Chebychev distance has no effect but on the weights. The achievement fitness made with an evaluation function is the opposite of the achievement distance with the given normaliser, so it is not negative exactly for the vectors that reach the reference on every objective. The achievement fitness ignores whether an objective is maximised, and the metric fitness made without an evaluation function ignores its normaliser.", "quantifier": "for all numbers of objectives, weights, references, normalisers and vectors", "why_tests_cant": "infinitely many inputs; a test samples a few", "anchors": ["moeo/src/fitness/moeoAggregationFitnessAssignment.h: operator()", "moeo/src/fitness/moeoConstraintFitnessAssignment.h: operator()", "moeo/src/scalarStuffs/fitness/moeoAchievementFitnessAssignment.h: compute_fitness", "moeo/src/scalarStuffs/distance/moeoAchievementScalarizingFunctionDistance.h: operator()", "moeo/src/scalarStuffs/distance/moeoAugmentedAchievementScalarizingFunctionDistance.h: operator()", "moeo/src/scalarStuffs/distance/moeoAugmentedWeightedChebychevDistance.h: operator()", "moeo/src/scalarStuffs/distance/moeoWeightedChebychevDistance.h: operator()", "moeo/src/scalarStuffs/fitness/moeoAchievementScalarizingFunctionMetricFitnessAssignment.h"]}
{"id": "C186", "title": "Weights in fixed time: the sequence, and its jumps", "statement": "Let P be the number of steps from 0 to 1. In one direction the first weights are (0, 1); after that the first weight runs through s, 2s, ... up to 1 in period P, and 0 never comes back. In both directions the first weights are (1, 0) and then the same values are taken on either side in turn, but the side changes with the call that reaches 1: at the end of each sweep the first weight jumps by P-1 steps and back by 1-s at the next call. With step 0 the weights never change.", "quantifier": "for all positive steps (and step 0), all numbers of calls", "why_tests_cant": "infinitely many inputs; a test samples a few", "anchors": ["moeo/src/scalarStuffs/weighting/moeoFixedTimeOneDirectionWeightStrategy.h: operator()", "moeo/src/scalarStuffs/weighting/moeoFixedTimeBothDirectionWeightStrategy.h: operator()"]}
{"id": "C187", "title": "Exploring weights without end: every rational once, or never above three quarters", "statement": "The exploring strategy gives weights with sum 1 and every rational number from 0 to 1 is the first weight of exactly one call; after the first two calls the denominators never decrease. The anytime strategy gives (0, 1), (1, 0), and from then on only first weights between 1/8 and 3/4, for ever; it never runs out, and it gives the equal weights twice within its first eight calls.", "quantifier": "for all numbers of calls and all rational weights, whatever the values that are not initialised", "why_tests_cant": "infinitely many inputs; a test samples a few", "anchors": ["moeo/src/scalarStuffs/weighting/moeoQexploreWeightStrategy.h: operator(), coprim", "moeo/src/scalarStuffs/weighting/moeoAnytimeWeightStrategy.h: operator()"]}
{"id": "C188", "title": "Exploring weights of any number of objectives: every admissible vector once", "statement": "Call a vector of weights admissible if its entries are multiples of some 1/2^k with sum 1 and at least one is neither 0 nor the inverse of a power of two. With at least two objectives every call of the augmented exploring strategy returns, the weights given are admissible, none is given twice, and every admissible vector is given by some call. All the weight on one objective, or equal halves, are never given. With a single objective no call ever returns.", "quantifier": "for all numbers of objectives and all numbers of calls", "why_tests_cant": "infinitely many inputs; a test samples a few", "anchors": ["moeo/src/scalarStuffs/weighting/moeoAugmentedQexploreWeightStrategy.h: operator(), next_num, translate, do_reset, coprim, is2pow"]}
{"id": "C189", "title": "Sharing rates an individual by its niche count", "statement": "The niche count of an individual is 1 plus, for each other one nearer than the niche size, 1 minus a power of the relative distance. The diversity by sharing is the greatest niche count less the own: never negative, 0 for a most crowded one, greater exactly for a smaller count; one with nobody nearer than the niche size has a greatest diversity. Front by front only neighbours of the same fitness count, while the greatest count is still taken over all individuals. An empty population is undefined.", "quantifier": "for all populations, symmetric distances, niche sizes and positive exponents", "why_tests_cant": "infinitely many inputs; a test samples a few", "anchors": ["moeo/src/diversity/moeoSharingDiversityAssignment.h: operator(), setSimilarities, sh", "moeo/src/diversity/moeoFrontByFrontSharingDiversityAssignment.h: setSimilarities", "moeo/src/distance/moeoDistanceMatrix.h: operator()"]}
{"id": "C190", "title": "Nearest neighbour diversity takes the index-th nearest of population and archive", "statement": "With at least two individuals in population and archive the diversity is -1/(2+d), where d is the distance to the index-th nearest other one (fewer than index others are strictly nearer, at least index are at most as far), the nearest for index 0 and the farthest if there are fewer than index others. The values lie from -1/2 to below 0 and grow exactly with d. A single individual is undefined.", "quantifier": "for all populations and archives, symmetric distances and indices", "why_tests_cant": "infinitely many inputs; a test samples a few", "anchors": ["moeo/src/diversity/moeoNearestNeighborDiversityAssignment.h: operator(), getElement"]}
{"id": "C191", "title": "Fitness by dominance count, rank and count-ranking agrees with dominance", "statement": "For any comparator that is a strict order, on archive and population together: one that dominates another has a greater fitness by dominance count, by rank and by count-ranking. Those dominated by none, and only those, have the greatest fitness by rank (the opposite of the start) and by count-ranking (0). With copies singled out, on the first use, one that is no copy has a greater rank fitness than every one it dominates and than every copy.", "quantifier": "for all populations, archives and strict comparators", "why_tests_cant": "infinitely many inputs; a test samples a few", "anchors": ["moeo/src/fitness/moeoDominanceCountFitnessAssignment.h: operator()", "moeo/src/fitness/moeoDominanceRankFitnessAssignment.h: operator()", "moeo/src/fitness/moeoDominanceCountRankingFitnessAssignment.h: operator(), countRanking", "moeo/src/utils/moeoDominanceMatrix.h: operator()"]}
{"id": "C192", "title": "Iterated local search applies the inner search to perturbed solutions and moves as its criterion says", "statement": "The first candidate is the inner local search from the given solution, unperturbed; each later one is the inner local search from the perturbed current solution. The current solution changes to the candidate exactly when the criterion accepts it. With the criterion 'better' the run ends with the best of its start and of all inner results. With the default criterion it ends with its last inner result, which may be worse than the start. The constructor with a number of iterations runs the inner search that often (at least once). Fitness values stay exact if inner search and perturbation keep them exact.", "quantifier": "for all inner local searches, perturbations, criteria, starts and stopping criteria", "why_tests_cant": "infinitely many inputs; a test samples a few", "anchors": ["mo/src/explorer/moILSexplorer.h: initParam, operator(), isContinue, move, accept", "mo/src/algo/moILS.h: moILS", "mo/src/acceptCrit/moAlwaysAcceptCrit.h: operator()", "mo/src/acceptCrit/moBetterAcceptCrit.h: operator()"]}
{"id": "C193", "title": "Restarts come after a number of iterations without progress", "statement": "With the restarting perturbation, an iteration begins from a fresh solution exactly when at least `threshold` iterations have passed and none of the last threshold - 1 ones ended with a move or began with a restart; otherwise the perturbation does nothing. So a threshold of 0 or 1 always restarts, even right after a move, and if nothing is accepted restarts come every threshold iterations. The memory counts moves correctly; its 'number of no moves' counts all iterations.", "quantifier": "for all inner searches, criteria, thresholds and lengths of runs", "why_tests_cant": "infinitely many inputs; a test samples a few", "anchors": ["mo/src/perturb/moRestartPerturb.h: operator()", "mo/src/memory/moCountMoveMemory.h: init, add, update, getNbMove, getNbNoMove, getCounter, initCounter"]}
{"id": "C194", "title": "Perturbation by a neighbourhood goes through the neighbours in order, beginning with the second", "statement": "In an iterated local search perturbed through another neighbourhood of n neighbours, the perturbation t - i iterations after the last move uses the neighbour of index (t - i) mod n of the current solution, with its fitness. After each move the first neighbour is skipped: if every candidate is accepted only the second one is ever used. As long as nothing is accepted n successive perturbations use each neighbour once.", "quantifier": "for all inner searches, criteria, neighbourhoods of constant size and run lengths", "why_tests_cant": "infinitely many inputs; a test samples a few", "anchors": ["mo/src/perturb/moNeighborhoodPerturb.h: operator(), init, add, update"]}
{"id": "C195", "title": "Operator perturbation applies the operator as often as drawn and re-evaluates", "statement": "The perturbation applies the operator the drawn number of times, reports whether any application changed something, and leaves the exact fitness. The number is at least the lower limit and less than the upper one (equal if both are equal), each such number being possible; swapped limits allow counts up to 2^32 - 1. The diversification by an operator keeps the fitness of the old solution if the evaluator skips solutions that have a fitness.", "quantifier": "for all operators, evaluation functions, limits and draws", "why_tests_cant": "infinitely many inputs; a test samples a few", "anchors": ["mo/src/perturb/moMonOpPerturb.h: operator()", "mo/src/memory/moMonOpDiversification.h: operator()", "eo/src/eoEvalFuncCounter.h: operator()"]}
{"id": "C196", "title": "Stopping without improvement stops after m calls not better than the best", "statement": "The continuator answers 'stop' at a call exactly when at least m calls were made and the solution was better than the best at none of the last m. If the best is kept up to date before the continuator is called, as by the best-so-far statistic of the same checkpoint, it is an iteration counter: it stops at call m however much the search improves.", "quantifier": "for all sequences of solutions and bounds m", "why_tests_cant": "infinitely many inputs; a test samples a few", "anchors": ["mo/src/continuator/moBestNoImproveContinuator.h: operator(), init", "mo/src/continuator/moCheckpoint.h: operator()", "mo/src/continuator/moBestSoFarStat.h: operator()"]}
{"id": "C197", "title": "Budgets of evaluations and of time are kept", "statement": "With restart a run goes on as long as fewer than m evaluations were made since its start, and overshoots by less than its last iteration; without restart evaluations are counted over all runs. If 2^32 or more evaluations were made before the start, the start is lost in 32 bits and the run stops after its first iteration. The time limit is counted from each start, or from the time given from outside, over all runs.", "quantifier": "for all counter values below 2^64, all budgets and times", "why_tests_cant": "infinitely many inputs; a test samples a few", "anchors": ["mo/src/continuator/moFullEvalContinuator.h: operator(), init", "mo/src/continuator/moNeighborEvalContinuator.h: operator(), init", "mo/src/continuator/moEvalsContinuator.h: operator(), init", "mo/src/continuator/moTimeContinuator.h: operator(), init, setStartingTime"]}
{"id": "C198", "title": "The best-so-far statistic holds the first best of the run", "statement": "By default it holds the first best one among the start and the solutions after each iteration of the last run. Without reinitialisation it holds the first best over all runs, but does not look at the starts of later runs, so a best start can be lost.", "quantifier": "for all sequences of runs", "why_tests_cant": "infinitely many inputs; a test samples a few", "anchors": ["mo/src/continuator/moBestSoFarStat.h: init, operator()"]}
{"id": "C199", "title": "Random search returns its last draw", "statement": "Random search for nbSolMax solutions draws at most max(1, nbSolMax - 1) solutions, exactly that many if its stopping criterion does not intervene, and ends with the last one, which may be worse than other draws and than the start.", "quantifier": "for all draws, numbers of solutions and stopping criteria", "why_tests_cant": "infinitely many inputs; a test samples a few", "anchors": ["mo/src/algo/moRandomSearch.h: moRandomSearch", "mo/src/explorer/moRandomSearchExplorer.h: operator(), isContinue, accept, move"]}
{"id": "C200", "title": "Aspiration admits a tabu move only if it beats everything seen", "statement": "In a tabu search with best-improvement aspiration and any tabu list, a move applied is not tabu or leads to a solution strictly better than all solutions of the run so far; and the move chosen is at least as good as every neighbour that beats all of them.", "quantifier": "for all tabu lists, neighbourhoods, starts and run lengths, without intensification and diversification", "why_tests_cant": "infinitely many inputs; a test samples a few", "anchors": ["mo/src/memory/moBestImprAspiration.h: init, operator(), update", "mo/src/explorer/moTSexplorer.h: operator(), moveApplied, move"]}
{"id": "C201", "title": "Sampling records every solution of the search once", "statement": "A sampling runs the given local search on an initial solution and returns, per statistic, the values at the start and after every iteration in order, the same result as the search alone. By random search it records max(2, nbSol) values; by a random walk of nbStep steps max(1, nbStep) + 1 values. The length of a walk by a climber that stopped by itself is its number of improving moves: all iterations but the last improve, the last changes nothing.", "quantifier": "for all searches, statistics, starts and lengths", "why_tests_cant": "infinitely many inputs; a test samples a few", "anchors": ["mo/src/sampling/moSampling.h: operator()", "mo/src/sampling/moAutocorrelationSampling.h: moAutocorrelationSampling", "mo/src/sampling/moDensityOfStatesSampling.h: moDensityOfStatesSampling", "mo/src/continuator/moVectorMonitor.h: operator()", "mo/src/continuator/moMinusOneCounterStat.h: init, operator()"]}
{"id": "C202", "title": "Sample statistics are minimum, maximum, mean, deviation and the matrix of distances", "statement": "For a non-empty sample: the least and greatest value, the arithmetic mean and the standard deviation of the population. The matrix of distances is symmetric with zero diagonal, and holds the distance of each pair if that is symmetric and zero for equal arguments.", "quantifier": "for all non-empty lists of numbers and all distances", "why_tests_cant": "infinitely many inputs; a test samples a few", "anchors": ["mo/src/sampling/moStatistics.h: basic, distances"]}
{"id": "C203", "title": "Autocorrelation of lag s is the correlation of the values s apart", "statement": "With n values and 1 <= nbS < n lags, the autocorrelation of lag 0 is 1 and that of lag s is the correlation coefficient of the n - s pairs of values s apart, with the means and deviations of the two shortened series; it lies between -1 and 1. No lag at all writes outside an array, and n or more lags give no number.", "quantifier": "for all series of numbers and numbers of lags, exact arithmetic", "why_tests_cant": "infinitely many inputs; a test samples a few", "anchors": ["mo/src/sampling/moStatistics.h: autocorrelation", "mo/src/sampling/moAutocorrelationSampling.h: moAutocorrelationSampling"]}
{"id": "C204", "title": "Partial autocorrelations solve the Yule-Walker equations", "statement": "For every order k the coefficients computed satisfy sum_j phi_kj rho(|i-j|) = rho(i) for i = 1..k as long as no denominator vanishes, so the partial autocorrelation returned is the last coefficient of the autoregression of order k. As every lag has its own means and deviations it may lie outside [-1, 1]: 0, 1, 2, 0 gives -5/3 for lag two.", "quantifier": "for all autocorrelations and orders, over any field", "why_tests_cant": "infinitely many inputs; a test samples a few", "anchors": ["mo/src/sampling/moStatistics.h: autocorrelation"]}
{"id": "C205", "title": "The fast GA makes the asked number of offspring; an evaluation limit returns the last complete generation", "statement": "Each generation hands the replacement exactly the asked number of offspring, all with their exact fitness, using at most three evaluations for each; at least one generation is made, and the final population has exact fitness values. With an evaluation limit, a limited run makes exactly `limit` evaluations (one for limit 0), an unlimited one fewer; the result of a limited run is the population after the last complete generation, so whatever the interrupted generation found is lost, even when the limit is reached by the last evaluation of a generation. When no number of offspring is given, the size of the first population is used by all later runs of the object.", "quantifier": "for all operators that report changes, selectors and replacements that only choose, stopping criteria, limits, populations", "why_tests_cant": "infinitely many inputs; a test samples a few", "anchors": ["eo/src/eoFastGA.h: operator()", "eo/src/eoAlgoFoundryFastGA.h: operator()", "eo/src/eoEvalCounterThrowException.h: operator()"]}
{"id": "C206", "title": "Encoded algorithms choose operators by rounding up", "statement": "A gene x chooses operator k of its slot exactly when k - 1 < x and x <= k; a slot of n operators is penalised exactly when x > n - 1; at -1 or below the behaviour is undefined. So over the range from 0 to n the first operator is chosen by 0 only, and the last unit of the range is always penalised.", "quantifier": "for all genes, numbers of operators and algorithms", "why_tests_cant": "infinitely many inputs; a test samples a few", "anchors": ["eo/src/eoEvalFoundryEA.h: decode, operator()"]}
{"id": "C207", "title": "A forge caches as asked", "statement": "With the cache a forge returns the same living object at every call, whatever is done to the other forges and until it is set up anew. Without the cache every call returns a new object and deletes the one the forge gave before. The shared version does not: it gives the null pointer for operators without constructor arguments, and with the cache a new object at each call until the plain version is called once, and the last shared one, possibly null, afterwards. Parameters are capped to their range, except for not a number.", "quantifier": "for all sequences of additions, instantiations and set-ups", "why_tests_cant": "infinitely many inputs; a test samples a few", "anchors": ["eo/src/eoForge.h: eoForgeOperator, eoForgeVector, eoForgeScalar"]}
{"id": "C208", "title": "The cellular algorithm works in place and keeps fitness exact", "statement": "A generation goes through the cells in order; the new individual of a cell is made from the population in which the earlier cells are already replaced. The number of cells is kept and at least one generation is made. Fitness values stay exact whatever the variation operators report. If the replacing selector takes the better of two, no cell ever gets worse.", "quantifier": "for all neighbourhoods, operators, selectors, stopping criteria and populations", "why_tests_cant": "infinitely many inputs; a test samples a few", "anchors": ["eo/src/eoCellularEasyEA.h: operator()"]}
{"id": "C209", "title": "The long k-path has one optimum, at the end of a long path", "statement": "For strings of length n = m*k + 1 the fitness of the i-th string of the long k-path is n + i, and that of a string off the path is its number of zeros, at most n - 1. So the end of the path is the best string and the only one without a better neighbour at one flip. Path strings whose ranks differ by d < k are at Hamming distance d, others at distance k or more, so for k >= 2 the only way up by one flip at a time is the path itself, of length (k+1)*2^m - k. For other lengths the string is read outside.", "quantifier": "for all k, m and bit strings", "why_tests_cant": "the claim is about all pairs of 2^n strings", "anchors": ["problems/eval/longKPathEval.h: LongKPathEval, operator(), final, nbZero"]}
{"id": "C210", "title": "The DTLZ problems have the Pareto sets they are known for", "statement": "With at least as many variables as objectives minus one, all between 0 and 1: the DTLZ1 objectives are nonnegative with sum at least 1/2, those of DTLZ2, DTLZ3 and DTLZ4 nonnegative with squares summing to at least 1, with equality exactly for the solutions all of whose distance variables are 1/2, and those are exactly the Pareto-optimal solutions of the box. For DTLZ5 and DTLZ6 such solutions (distance variables 0 for DTLZ6) are Pareto-optimal and lie on a curve. DTLZ7 has its position variables as first objectives and Pareto-optimal solutions have all distance variables 0. With fewer variables the evaluations read outside.", "quantifier": "for all numbers of variables and objectives and all real solutions of the box", "why_tests_cant": "a statement about all real vectors and about dominance by any other", "anchors": ["problems/DTLZ/src/DTLZ1Eval.cpp: operator()", "problems/DTLZ/src/DTLZ2Eval.cpp: operator()", "problems/DTLZ/src/DTLZ3Eval.cpp: operator()", "problems/DTLZ/src/DTLZ4Eval.cpp: operator()", "problems/DTLZ/src/DTLZ5Eval.cpp: operator()", "problems/DTLZ/src/DTLZ6Eval.cpp: operator()", "problems/DTLZ/src/DTLZ7Eval.cpp: operator()"]}
{"id": "C211", "title": "SBX and polynomial mutation stay within bounds", "statement": "SBX of two solutions within their bounds gives two within the bounds, without truncation; each pair of genes encloses the middle of the parents' genes, lies inside the parents' interval exactly for small random numbers, and does not depend on the order of the parents. It reports a change exactly when two genes differ by more than 1e-14. Without bounds it throws as soon as the parents differ. Polynomial mutation moves a gene down for random numbers up to one half and up for larger ones, by at most the distance to the nearest bound: a gene on a bound never moves, although a change is reported.", "quantifier": "for all real genes and bounds, distribution indices >= 0 and random numbers", "why_tests_cant": "infinitely many inputs; a test samples a few", "anchors": ["problems/DTLZ/src/SBXCrossover.h: operator()", "problems/DTLZ/src/PolynomialMutation.h: operator()"]}
{"id": "C212", "title": "NK landscapes link each bit to K other, different bits", "statement": "If K < N, the links drawn for bit i are K + 1 different bits, the first being i; each such list comes from exactly one list of drawn numbers, so all are equally likely. Consecutive links are different as well. So incremental evaluation is exact on every landscape that is built. Contributions and fitness are between 0 and 1; quantised contributions are the multiples of 1/(q-1), none for q = 1.", "quantifier": "for all N, K, drawn numbers, tables and solutions", "why_tests_cant": "infinitely many inputs; a test samples a few", "anchors": ["problems/eval/nkLandscapesEval.h: randomTables, choose, consecutiveTables, contribution, operator()", "problems/eval/nkpLandscapesEval.h: contribution", "problems/eval/nkqLandscapesEval.h: contribution"]}
{"id": "C213", "title": "NK landscape files cannot be loaded", "statement": "Loading a landscape throws for every file, also for those written by save, whatever they contain, except for files of comment lines only, for which it does not end. The same holds of the NKp and NKq variants.", "quantifier": "for all files", "why_tests_cant": "no finite set of files shows that none can be loaded", "anchors": ["problems/eval/nkLandscapesEval.h: load, save", "problems/eval/nkpLandscapesEval.h: load, save", "problems/eval/nkqLandscapesEval.h: load, save"]}
{"id": "C214", "title": "Random MaxSAT clauses have different variables", "statement": "With k <= n every clause of a random instance has k literals over different variables between 1 and n, negated as the coin says; with k > n memory outside of the table is accessed. So incremental evaluation is exact for all variables that are not negated in the first clause.", "quantifier": "for all numbers of variables, clauses, literals and random draws", "why_tests_cant": "infinitely many inputs; a test samples a few", "anchors": ["problems/eval/maxSATeval.h: MaxSATeval(unsigned, unsigned, unsigned)", "mo/src/problems/eval/moMaxSATincrEval.h: operator()"]}
{"id": "C215", "title": "A MaxSAT instance written to a file is read back", "statement": "Loading what was saved gives the same variables and clauses. A file with fewer clauses than announced is accepted, the missing clauses being empty; a file that ends within a clause is read without end.", "quantifier": "for all instances and truncations", "why_tests_cant": "infinitely many inputs; a test samples a few", "anchors": ["problems/eval/maxSATeval.h: save, MaxSATeval(std::string&)"]}
{"id": "C216", "title": "Building-block royal road, queens and solution sets are evaluated as documented", "statement": "Each block scores, for each target, the weight if equal and 1/(1+d) at d differences; with one target of weight above one half the optima are the strings all of whose blocks equal it. The queens fitness is the number of pairs of queens on a common diagonal, so 0 exactly if there is none. The fitness of a set of solutions is between the greatest and the sum of the members' fitness, and the sum for p = 1.", "quantifier": "for all solutions, targets, weights, board sizes and exponents p >= 1", "why_tests_cant": "infinitely many inputs; a test samples a few", "anchors": ["problems/eval/bbRoyalRoadEval.h: operator()", "problems/eval/queenEval.h: operator()", "problems/eval/moPopSolEval.h: operator()", "problems/eval/oneMaxPopEval.h: operator()"]}
{"id": "C217", "title": "Initialisers make individuals of the announced lengths", "statement": "The fixed length initialiser makes the announced number of atoms, in the order of the draws, and an invalid fitness. The variable length initialiser makes between min and max - 1 atoms, every such length for some draw, never max; it refuses min >= max. Its atom initialiser is handed the atoms of the old individual, so one that sets only part of an atom lets the old individual show through.", "quantifier": "for all lengths, generators, draws and previous contents", "why_tests_cant": "infinitely many inputs; a test samples a few", "anchors": ["eo/src/eoInit.h: eoInitFixedLength, eoInitVariableLength"]}
{"id": "C218", "title": "The permutation initialiser makes permutations, but not reproducible ones", "statement": "The result is a permutation of start, ..., start + n - 1 with invalid fitness, for any shuffling. It depends on a number from the machine, not only on the seed of the random number generator. Start values near 2^32 wrap.", "quantifier": "for all sizes, start values and shuffles", "why_tests_cant": "no run shows all shuffles; reproducibility is about two runs", "anchors": ["eo/src/eoInit.h: eoInitPermutation, eoInitAdaptor"]}
{"id": "C219", "title": "Combined operators and initialisers apply each member with its share", "statement": "Of the operators combined with their rates exactly one is applied; operator i is applied exactly if the draw falls into the interval of length rate i. With all rates zero memory is read past the rates.", "quantifier": "for all lists of operators, rates and draws", "why_tests_cant": "infinitely many inputs; a test samples a few", "anchors": ["eo/src/eoCombinedInit.h: eoCombinedInit", "eo/src/eoProportionalCombinedOp.h: eoPropCombinedMonOp, eoPropCombinedBinOp, eoPropCombinedQuadOp"]}
{"id": "C220", "title": "Mutations of fixed length vectors mutate the atoms they draw and report any change", "statement": "The mutation of all atoms with a rate mutates exactly the atoms drawn, keeps the others and the length, and reports a change exactly if the mutation of some atom does. The mutation of k atoms changes at most k atoms and keeps the length; on an empty vector it reads outside. Both answer false only if nothing changed, if the atom mutations do.", "quantifier": "for all vectors, atom mutations and draws", "why_tests_cant": "infinitely many inputs; a test samples a few", "anchors": ["eo/src/eoFlOrMonOp.h: eoFlOrAllMutation, eoFlOrKMutation"]}
{"id": "C221", "title": "Counters count all calls; counted and timed savers save when they say", "statement": "A counter gives the results of what it wraps and counts every call, also those that throw. The counting saver writes a file at each multiple of its interval, each with another name; if it also saves at the end it writes a file of an earlier name exactly if the number of calls is a positive multiple of the interval. An interval of 0 divides by zero. The timed saver writes at times at least the interval apart and lets no call pass that comes that long after the last writing.", "quantifier": "for all sequences of calls and clocks", "why_tests_cant": "any finite run shows some intervals only", "anchors": ["eo/src/utils/eoUpdater.cpp: eoCountedStateSaver, eoTimedStateSaver", "eo/src/eoCounter.h: eoProcedureCounter, eoUnaryFunctorCounter, eoBinaryFunctorCounter"]}
{"id": "C222", "title": "Generators make numbers of their range", "statement": "With two arguments the real generator makes exactly the numbers of [min, max), the integer generators exactly the integers from the minimum to one below the maximum, as long as the range is below 2^31. Equal arguments give that value for reals; a maximum below the minimum is refused. With one argument nothing is refused, and a negative maximum gives negative numbers.", "quantifier": "for all ranges and draws", "why_tests_cant": "infinitely many inputs; a test samples a few", "anchors": ["eo/src/utils/rnd_generators.h: uniform_generator, random_generator", "eo/src/utils/eoUniformInit.h: eoUniformInit"]}
{"id": "C223", "title": "ES individuals start within the bounds with positive standard deviations", "statement": "Genes are within the bounds; bounds that are not two-sided are refused, exactly these. The standard deviations are the given one, or it times the range of the variable (the single one: times the average range), and positive if the given one is. There are n(n-1)/2 correlation angles, between -pi and pi, up to 2^16 variables; with 2^16 + 1 there are too few.", "quantifier": "for all bounds, standard deviations, draws and numbers of variables", "why_tests_cant": "infinitely many inputs; a test samples a few", "anchors": ["eo/src/es/eoEsChromInit.h: operator(), create_self_adapt, eoEsChromInit", "eo/src/es/eoRealInitBounded.h: operator()"]}
{"id": "C224", "title": "The cached ranking ranks like the plain one", "statement": "After any sequence of populations, of any sizes, including populations that were refused, the cached ranking gives each individual the worth that the ranking without cache gives it, and refuses the same populations.", "quantifier": "for all histories of calls, pressures and exponents", "why_tests_cant": "the cache is wrong, if at all, after some histories only", "anchors": ["eo/src/eoRankingCached.h: operator()", "eo/src/eoRanking.h: operator()"]}
{"id": "C225", "title": "Selection by worth selects by worth, as long as the population is the one of the setup", "statement": "Right after setup the deterministic tournament returns the drawn individual of greatest worth, the stochastic one the better or the worse of two as the flip says, the roulette one of positive worth with a share equal to its worth. If the population has changed since, a build with assertions throws exactly if the individual to be returned has another fitness than was recorded at its place; a build without returns it, although its worth may be the least. A population that became shorter is read outside.", "quantifier": "for all populations, worths and draws", "why_tests_cant": "infinitely many inputs; a test samples a few", "anchors": ["eo/src/eoSelectFromWorth.h: eoSelectFromWorth, eoDetTournamentWorthSelect, eoStochTournamentWorthSelect, eoRouletteWorthSelect, setup, check_sync"]}
{"id": "C226", "title": "Minimisation is recognised, except for scalar fitness other than double", "statement": "minimizing_fitness answers correctly exactly for the types that are not a scalar fitness compared by 'greater' of a scalar other than double; those are taken as maximised, so proportional selection accepts them and prefers what is bad.", "quantifier": "for all fitness types", "why_tests_cant": "each type is another program", "anchors": ["eo/src/utils/selectors.h: minimizing_fitness, is_fit", "eo/src/eoScalarFitness.h: eoScalarFitness, eoMinimizingFitness", "eo/src/eoProportionalSelect.h: eoProportionalSelect", "eo/src/eoStochasticUniversalSelect.h: eoStochasticUniversalSelect"]}
{"id": "C227", "title": "Integer swarms stay integer and within bounds; extended velocities extend the standard one", "statement": "From an integer start within integer bounds all positions, remembered positions and velocities of an integer swarm are integers within the bounds, for all generations. A particle at rest stays at rest exactly if the pull is below one half. The extended velocity is within its bounds and agrees with the standard one if the swarm's best is the neighbourhood's or one coefficient is zero. Initialising velocities leaves positions alone exactly if their number is that of the positions.", "quantifier": "for all swarms, numbers of generations, coefficients and draws", "why_tests_cant": "an invariant of all generations", "anchors": ["eo/src/eoIntegerVelocity.h: operator()", "eo/src/eoExtendedVelocity.h: operator()", "eo/src/eoVelocityInit.h: eoVelocityInitFixedLength"]}
{"id": "C228", "title": "The binary flight draws bits by the sigmoid of the velocity", "statement": "A bit becomes one exactly if the draw is below 1/(1+exp(-v/slope)): a probability strictly between 0 and 1, increasing in the velocity, one half for velocity zero and symmetric. So every bit string can follow every other. For slope 0 the bits are the signs of the velocities and nothing is random.", "quantifier": "for all velocities, slopes, draws and lengths", "why_tests_cant": "infinitely many inputs; a test samples a few", "anchors": ["eo/src/eoSigBinaryFlight.h: sigmoid, operator()"]}
{"id": "C229", "title": "The hypervolume difference is the difference of two dominated volumes", "statement": "With normalisation and a factor of at least 1 the metric of two non-empty sets is the volume of the region the first dominates less that of the second, each objective scaled by its bounds over both sets, also if an objective is constant. Exchanging the sets changes the sign (with any options); rescaling or shifting objectives changes nothing. A set that weakly covers another is never valued below it; sets that cover each other get 0; a set that covers another without being covered gets a positive value if the factor exceeds 1. Without normalisation the value is the difference of volumes if no objective value is negative.", "quantifier": "for all numbers of objectives from two on, all finite sets of real vectors, directions and factors", "why_tests_cant": "volumes of unions of boxes in any dimension and order relations between all pairs of sets cannot be enumerated", "anchors": ["moeo/src/metric/moeoHyperVolumeDifferenceMetric.h: moeoHyperVolumeDifferenceMetric", "moeo/src/metric/moeoHyperVolumeMetric.h: moeoHyperVolumeMetric"]}
{"id": "C230", "title": "Stopping at a known front stops exactly when the front is covered", "statement": "As long as the known front weakly covers the archive, with normalisation and a factor above 1, the search goes on exactly until the archive weakly covers the known front. If the archive has vectors the known front does not cover, it may stop at another front of the same volume. The known front is cut out of the list of values in steps of the number of objectives; a remainder is ignored. An empty archive or front is an exception. The variant for feasible and infeasible vectors stops at once when archive and known front differ in feasibility.", "quantifier": "for all archives, known fronts, factors and numbers of objectives from two on", "why_tests_cant": "the equivalence quantifies over all archives; the false stop needs an exact coincidence of volumes", "anchors": ["moeo/src/continue/moeoHypContinue.h: moeoHypContinue", "moeo/src/continue/moeoDualHypContinue.h: moeoDualHypContinue"]}
{"id": "C231", "title": "The entropy metric is not the entropy", "statement": "Exactly the non-dominated vectors of a set are used, with their multiplicity. The value returned is log 2 times the normalised entropy of the niches plus log 2 log(log 2) times the sum of the weights over log omega. So vectors alone in their niches, of entropy 1, get less than 0.7; two extreme vectors get log 2 + log log 2. An empty first set is read out of bounds; a single vector or a constant objective divides by zero.", "quantifier": "for all sets, numbers of niches and comparators that are strict partial orders", "why_tests_cant": "infinitely many inputs; a test samples a few", "anchors": ["moeo/src/metric/moeoEntropyMetric.h: moeoEntropyMetric"]}
{"id": "C232", "title": "The roulette of moeo is proportional only if the fitnesses add up to the tournament size", "statement": "The wheel is turned by a number below the tournament size and not below the total fitness. An individual is selected for the draws in its part of that interval; individuals whose predecessors' fitnesses add up to the tournament size are never selected; if all fitnesses add up to less, the draws above read past the end of the population. If they add up to exactly the tournament size, the probability is fitness over total.", "quantifier": "for all populations of non-negative fitness, sizes and draws", "why_tests_cant": "unit tests check that something is selected; frequencies and reads past the end depend on the draw", "anchors": ["moeo/src/selection/moeoRouletteSelect.h: moeoRouletteSelect", "moeo/src/selection/moeoSelectors.h: mo_roulette_wheel"]}
{"id": "C233", "title": "Multi-objective tournaments return a contender no other contender beats", "statement": "The deterministic tournament draws the given number of individuals, at least two, and returns one of them that none of them beats, for any comparator that is a strict partial order; it fails only on an empty population. The stochastic one draws two and returns one that the other does not beat if the coin is below the rate, else one that does not beat the other; rates are moved into [1/2, 1].", "quantifier": "for all populations, comparators, sizes, rates and draws", "why_tests_cant": "infinitely many inputs; a test samples a few", "anchors": ["moeo/src/selection/moeoDetTournamentSelect.h: moeoDetTournamentSelect", "moeo/src/selection/moeoStochTournamentSelect.h: moeoStochTournamentSelect", "moeo/src/selection/moeoSelectors.h: mo_deterministic_tournament, mo_stochastic_tournament"]}
{"id": "C234", "title": "Statistics of objectives describe the last population, except the best individuals", "statement": "After any number of generations the best statistic holds in each objective the best value of the last population; but the individual it returns for an objective is the first best one of the first population ever seen. The number of objectives itself is accepted as index: after one generation that is a read out of bounds. The average statistic is the mean. The statistic of a binary metric is the metric of the last two non-empty populations, the later first, and its initial value before.", "quantifier": "for all sequences of non-empty populations", "why_tests_cant": "a test with one generation cannot see that the individuals are never updated", "anchors": ["moeo/src/utils/moeoBestObjVecStat.h: moeoBestObjVecStat", "moeo/src/utils/moeoAverageObjVecStat.h: moeoAverageObjVecStat", "moeo/src/utils/moeoBinaryMetricStat.h: moeoBinaryMetricStat"]}
{"id": "C235", "title": "Fitness with respect to a reference point respects dominance, but depends on the others", "statement": "With the additive epsilon indicator the fitness is non-negative exactly for individuals that weakly dominate the reference point, and an individual that weakly dominates another is at least as fit. Which of two incomparable individuals is fitter may change when a third is removed, while the update after a deletion does nothing.", "quantifier": "for all populations, reference points and directions", "why_tests_cant": "infinitely many inputs; a test samples a few", "anchors": ["moeo/src/fitness/moeoReferencePointIndicatorBasedFitnessAssignment.h: moeoReferencePointIndicatorBasedFitnessAssignment"]}
{"id": "C236", "title": "The eigenvectors computed for a symmetric matrix are orthonormal and give the matrix back", "statement": "Whatever matrix is given, the columns returned are orthonormal. If the number returned is less than the iteration limit minus one, eigenvalues and eigenvectors give the matrix of the lower triangle back, but for an error in each entry of at most 2 u |C| (iterations + N), u being the relative precision of the test for negligible numbers and |C| the Frobenius norm; in exact arithmetic the result is exact and each column is an eigenvector. Order two needs at most one sweep. No step divides by zero. Taking only such runs, the program is a solver as the covariance adaptation needs.", "quantifier": "for all orders, matrices, limits and tests that accept numbers up to a fraction u of the sum of their neighbours only", "why_tests_cant": "an identity between products of unboundedly many rotations for all real matrices; tests check sample matrices only", "anchors": ["eo/src/es/eig.cpp: eo::eig, Householder, QLalgo", "eo/src/es/CMAState.cpp: updateEigenSystem"]}
{"id": "C237", "title": "The number the eigenvalue solver returns does not tell success from failure", "statement": "A run cut off by the iteration limit returns the limit minus one, which its caller takes for success; then some column is not an eigenvector. This happens for the path of three vertices with limit one. A run that needs exactly as many sweeps as allowed is finished and right but returns the limit, which is taken for failure: so it is for every matrix of order two that is not diagonal with limit one.", "quantifier": "for all matrices and limits; witnesses for the two wrong answers", "why_tests_cant": "tests use limits that are never reached", "anchors": ["eo/src/es/eig.cpp: QLalgo", "eo/src/es/CMAState.cpp: updateEigenSystem"]}
{"id": "C238", "title": "What a run of an estimation of distribution algorithm does, and what it leaves", "statement": "Each generation selects from the current population, estimates from the selected individuals and the distribution before, draws as many individuals as there are, evaluates and replaces. With a replacement that keeps the size the size never changes and each completed generation evaluates as many individuals as there are; with one that keeps something as good as each parent the best is never lost. Ended by the criterion on the population, the distribution left is the one the last individuals were drawn from; ended by the criterion on the distribution, it is a rejected one nothing was drawn from, and the population is that of the generation before. For an estimator that looks at the selected only, the initial estimate has no effect at all; with the constructors that take one estimator, an adaptive one updates the distribution once more than there are generations, twice before the first individual is drawn.", "quantifier": "for all estimators, selections, samplers, replacements, criteria and populations, runs of any length", "why_tests_cant": "infinitely many inputs; a test samples a few", "anchors": ["edo/src/edoAlgoAdaptive.h: edoAlgoAdaptive::operator()", "edo/src/edoAlgoStateless.h"]}
{"id": "C239", "title": "The criterion on the condition of the covariance lets matrices that are no covariances pass", "statement": "For a positive definite matrix with exact eigenvalues it goes on if and only if the quotient of every two eigenvalues is below the threshold; for a singular one it stops; but for every matrix with a negative direction it goes on, as soon as the threshold is above one. The criterion on finite parameters goes on if and only if every entry of the six parameters it looks at is finite; the mean is not among them. Combined criteria go on if and only if all do, asked in order up to the first that does not.", "quantifier": "for all orders, symmetric matrices, thresholds and parameters", "why_tests_cant": "needs the spectral theorem for all symmetric matrices; tests use well-behaved matrices", "anchors": ["edo/src/edoContAdaptiveIllCovar.h", "edo/src/edoContAdaptiveFinite.h", "edo/src/edoCombinedContinue.h"]}
{"id": "C240", "title": "The transformation by a distribution leaves no individual; the combined estimator without memory is undefined", "statement": "Estimating a distribution and sampling it in place of a population always leaves an empty population, because the population is cleared before its size is read. The combined estimator hands the shared distribution from one estimator to the next and returns what the last returns. The variant that is to forget its distribution writes to the one it has just deleted: no call of it is defined.", "quantifier": "for all estimators, samplers and populations", "why_tests_cant": "the classes are not instantiated by any test", "anchors": ["edo/src/edoTransform.h: edoTransformAdaptive", "edo/src/edoEstimatorCombined.h"]}
{"id": "C241", "title": "Distributions of matrices of bits: frequencies, unless an individual has more ones than there are individuals", "statement": "For individuals of one shape the estimated probability of each entry is the frequency of ones in that place, provided that no individual has more ones than there are individuals: otherwise the estimation aborts on an assertion though the frequencies are well defined. A sample has the same shape, and an entry that all individuals have in common is in every sample.", "quantifier": "for all shapes, populations and random draws", "why_tests_cant": "infinitely many inputs; a test samples a few", "anchors": ["edo/src/edoEstimatorBinomialMulti.h", "edo/src/edoSamplerBinomialMulti.h", "edo/src/edoBinomialMulti.h"]}
{"id": "C242", "title": "Expressions: every node has a number, replacement touches one node, crossover moves nodes and makes none", "statement": "Numbers below the size give the nodes in preorder; a larger number silently gives the whole expression when reading, and writes outside the arguments when replacing. Replacing node i exchanges the part of the listing that belongs to it and nothing else; what was put in is found there; putting back what was there changes nothing. Crossover with selections that return the subtree of the number they return leaves two children that have together exactly the nodes of their parents. The selector that prefers inner nodes returns an inner node as soon as it draws one; if it draws only leaves, the number it returns is that of one draw more than the subtree it returns, and crossover then loses or doubles nodes.", "quantifier": "for all expressions, numbers, selections and random draws", "why_tests_cant": "infinitely many inputs; a test samples a few", "anchors": ["eo/contrib/mathsym/sym/Sym.cpp: get_subtree, insert_subtree", "eo/contrib/mathsym/gen/NodeSelector.cpp", "eo/contrib/mathsym/eo_interface/eoSymCrossover.cpp: subtree_quad"]}
{"id": "C243", "title": "Homologous crossover takes every node from a parent in the same place; mutation of nodes keeps the shape; both report exactly when something changed", "statement": "Each node of the child of homologous crossover has the function of a parent's node in the same place, and every place both parents have is in the child; the change is reported if and only if the child differs. Mutation of nodes keeps every number of arguments and puts in only functions that the language has with that number of arguments; the change is reported if and only if the expression differs. The language holds a function with a number of arguments if and only if it was added with it. Crossover by size and level tries at most six pairs and uses one of the same size or level if it stops before the last.", "quantifier": "for all expressions, languages and random draws", "why_tests_cant": "infinitely many inputs; a test samples a few", "anchors": ["eo/contrib/mathsym/eo_interface/eoSymCrossover.cpp", "eo/contrib/mathsym/eo_interface/eoSymMutate.cpp: do_mutate", "eo/contrib/mathsym/gen/LanguageTable.cpp"]}
{"id": "C244", "title": "Random expressions respect language and depth; the depth of the initialiser runs away for limits below two", "statement": "With a function and a variable in the language generation always succeeds; every node is a terminal of the language or a constant, or a function of it with its number of arguments; no node is deeper than the limit, and with the full method every node above the limit is a function. The initialiser draws depths from 2 to one below its limit, all of them possible, for limits of at least three; for a limit of two always two; for limits one and zero an unsigned difference wraps and depths above a billion are drawn.", "quantifier": "for all languages, depths and random draws", "why_tests_cant": "infinitely many inputs; a test samples a few", "anchors": ["eo/contrib/mathsym/gen/TreeBuilder.cpp", "eo/contrib/mathsym/eo_interface/eoSymInit.h"]}
{"id": "C245", "title": "Arithmetic of expressions has the value it says and keeps sums and products flat", "statement": "On all inputs on which both operands have a value, the sum, difference, product, quotient, opposite and power of two expressions have as value the sum, difference, product, quotient, opposite and power of their values; a sum has no sum and a product no product among its arguments.", "quantifier": "for all expressions and inputs", "why_tests_cant": "infinitely many inputs; a test samples a few", "anchors": ["eo/contrib/mathsym/fun/SymOps.cpp"]}
{"id": "C246", "title": "Simplification keeps the value of an expression and leaves nothing to fold", "statement": "Whenever simplification returns, the result has the same value as the expression on all inputs; no function of constants only is left, nor an empty sum or product; a second simplification changes nothing. It returns for every expression all parts of which have a value on some inputs.", "quantifier": "for all expressions and inputs, over exact arithmetic", "why_tests_cant": "infinitely many inputs; a test samples a few", "anchors": ["eo/contrib/mathsym/fun/sym_operations.cpp: simplify"]}
{"id": "C247", "title": "Constants of an expression can be read, written back and mutated without touching anything else", "statement": "Writing the constants that were read changes nothing; writing as many values as there are constants puts exactly those there in order, and the expression is otherwise the same; writing fewer reads beyond the end of the vector. Mutation of constants reports a change if and only if there are constants; each moves by its own draw times the deviation over the number of constants.", "quantifier": "for all expressions, vectors of values and random draws", "why_tests_cant": "infinitely many inputs; a test samples a few", "anchors": ["eo/contrib/mathsym/fun/FunDef.cpp: get_constants, set_constants", "eo/contrib/mathsym/eo_interface/eoSymMutate.cpp: mutate_constants"]}
{"id": "C248", "title": "Compression into lambdas and expansion end and keep the value", "statement": "Expanding all lambdas leaves none and gives the same value on all inputs on which the expression has one, and it ends for every expression that has a value. Compression ends, the nesting of its calls being at most the size of the expression; its result is never larger, uses well-formed lambdas only, leaves those made before as they were, and has the same value wherever the expression has one.", "quantifier": "for all expressions, lambdas made before, and inputs", "why_tests_cant": "termination and preservation of values for all expressions; tests try a few", "anchors": ["eo/contrib/mathsym/fun/FunDef.cpp: compress, create_lambda, new_lambda, expand_all, SymUnlambda"]}
{"id": "C249", "title": "Symbolic differentiation gives the derivative for sums, products and the functions with right rules", "statement": "For an expression built from variables, constants, sums, products, opposites, tan, asin, acos, sinh, tanh, asinh, acosh, atanh, exp, log, square and square root, at inputs inside the domain of each of them, differentiation with respect to a variable returns an expression whose value there is the partial derivative.", "quantifier": "for all such expressions, inputs and variables", "why_tests_cant": "a derivative is a statement about all points near the inputs; a test compares a few values to a finite difference", "anchors": ["eo/contrib/mathsym/fun/sym_operations.cpp: differentiate, derivative"]}
{"id": "C250", "title": "The rules for inverse, sine, cosine, hyperbolic cosine, arc tangent and power differentiate wrongly", "statement": "For 1/a, sin a, cos a and cosh a the returned expression has minus the derivative as value. For atan a it is off by the factor root of one plus the square of a, and right only if a or the derivative is zero. For a power u^v it is u^v times v over u whatever the variable is: right for the variable raised to a constant, wrong for instance for a power of two constants, whose derivative it gives as 1. Conditionals and calls of lambdas with arguments throw.", "quantifier": "for all differentiable arguments and all inputs in the domain", "why_tests_cant": "infinitely many inputs; a test samples a few", "anchors": ["eo/contrib/mathsym/fun/sym_operations.cpp: differentiate, derivative"]}
{"id": "C251", "title": "Expressions accepted by the interval check have values on the whole input box", "statement": "If the interval check accepts an expression for given input bounds, then for every input inside the bounds the expression has a value, no function is used outside its domain on the way, and the value lies in the computed bounds and within ten to the tenth. Arguments of accepted expressions are accepted. Arc sine and arc cosine, however, are accepted only if their argument is one on the whole box.", "quantifier": "for all expressions, boxes and inputs in them, given an interval library that encloses", "why_tests_cant": "the inputs in a box are infinitely many and the expressions unbounded", "anchors": ["eo/contrib/mathsym/eval/BoundsCheck.cpp: calc_bounds, in_bounds", "eo/contrib/mathsym/eval/Interval.h", "eo/contrib/mathsym/fun/FunDef.cpp: eval (interval)"]}
{"id": "C252", "title": "Evaluation of symbolic populations gives each individual its own error", "statement": "Evaluating two populations together leaves every fitness that was there, gives an individual that is too large or out of bounds the worst fitness and every other one its own error, in both populations. With the check that is named as no check, every new individual gets the worst fitness.", "quantifier": "for all populations, checks and errors", "why_tests_cant": "infinitely many inputs; a test samples a few", "anchors": ["eo/contrib/mathsym/eo_interface/eoSymEval.h: eoSymPopEval", "eo/contrib/mathsym/eval/BoundsCheck.h: NoBoundsCheck"]}
{"id": "C253", "title": "The shared function table computes the expressions", "statement": "The table of shared subexpressions made from a population of expressions gives on every input the value each expression has on it. Making the table ends for expressions of sums, products, squares, opposites, inverses, exponentials, inputs and constants; any other function ends the program.", "quantifier": "for all lists of expressions and inputs", "why_tests_cant": "the sharing depends on all expressions of the population together", "anchors": ["eo/contrib/mathsym/eval/MultiFunction.cpp: MultiFunction, Compiler", "eo/contrib/mathsym/eval/MultiFuncs.cpp"]}
{"id": "C254", "title": "Running statistics are the sample statistics, except on the diagonal of the matrix", "statement": "Mean, variance and covariance computed by updates equal the sample mean, variance and covariance of the data. The covariance matrix is right off its diagonal; on the diagonal it holds between two and three times the sample variance.", "quantifier": "for all finite data", "why_tests_cant": "equality with the batch formula for all lengths is an induction", "anchors": ["eo/contrib/mathsym/regression/stats.h: Mean, Var, Cov, CovMatrix"]}
{"id": "C255", "title": "Linear scaling is least squares where it is computed", "statement": "Intercept and slope of ordinary, weighted and regularised scaling, and the slope of scaling without intercept, minimise the (weighted, penalised) sum of squared errors, except in the degenerate cases, which give the mean, slope zero or the identity. The penalty is counted once per case.", "quantifier": "for all data, weights and penalties at least zero, and all other intercepts and slopes", "why_tests_cant": "optimality is against infinitely many competitors", "anchors": ["eo/contrib/mathsym/regression/Scaling.cpp: slope, ols, wls, regularized_least_squares"]}
{"id": "C256", "title": "Errors reported for symbolic regression are those of the reported scaling", "statement": "The scaled error of a population is the smallest sum of squared errors over the number of cases less one and the reported scaling attains it; the error of a single expression divides by the number of cases. Constant predictions are reported with the error of the mean but the identity as scaling. One case gives an error that is no number. The worst performance of the scaled measure is never exceeded, that of the others can be. Clones get their own result.", "quantifier": "for all data with at least two cases unless said otherwise", "why_tests_cant": "infinitely many inputs; a test samples a few", "anchors": ["eo/contrib/mathsym/regression/ErrorMeasure.cpp: calc_error, worst_performance"]}
{"id": "C257", "title": "Expressions written as raw text are read back unchanged", "statement": "Reading the raw text of an expression gives the expression and leaves what follows it, if that does not start with a digit; different expressions have different texts. The empty text ends the program.", "quantifier": "for all expressions and following texts, given constants that read back", "why_tests_cant": "expressions are unbounded and nested", "anchors": ["eo/contrib/mathsym/fun/FunDef.cpp: write_raw, read_raw"]}
{"id": "C258", "title": "Numbers of constants and lambdas stand for one object as long as it is in use", "statement": "Asking for a constant or a lambda returns a number that stands for exactly it; all numbers in use keep their meaning, also when unused ones are reclaimed. Lambdas are always made. A constant is written outside its table exactly when its number equals the size of the table; one constant, sixty-seven lambdas and another constant do that; a program without lambdas never does.", "quantifier": "for all sequences of requests, new variables and reclaimed numbers", "why_tests_cant": "needs an invariant of all reachable tables", "anchors": ["eo/contrib/mathsym/fun/FunDef.cpp: SymConst, new_lambda, extend_free_list, add_tokens, delete_val"]}
{"id": "C259", "title": "Dichotomic weights: always usable, and what makes the strategy fail", "statement": "Whatever solutions are given back, every weight pair the dichotomic strategy gives is a pair of numbers, not negative, with sum one; it is one of the two single objectives or comes from two solutions adjacent in the front found so far. Every solution given back is in the archive, waits to be added, or is dominated by one that is. The strategy fails on exactly one pattern: the first of two opening calls leaves two solutions in the archive; this happens for the same solution twice followed by another one, and never if no solution dominates another and the first two differ. The weights are the direction of the segment between the two solutions, not its normal: the two solutions tie under them only if they differ equally in both objectives.", "quantifier": "for all sequences of solutions with two objectives", "why_tests_cant": "infinitely many inputs; a test samples a few", "anchors": ["moeo/src/scalarStuffs/weighting/moeoDichoWeightStrategy.h: operator()"]}
{"id": "C260", "title": "Random and equal weights sum to one", "statement": "Random weights are between zero and one, proportional to the draws, with sum one, unless all draws are zero, when no weight is a number. Equal weights are one over their number.", "quantifier": "for all draws and numbers of objectives", "why_tests_cant": "infinitely many inputs; a test samples a few", "anchors": ["moeo/src/scalarStuffs/weighting/moeoRandWeightStrategy.h: operator()", "moeo/src/scalarStuffs/weighting/moeoDummyWeightStrategy.h: operator()"]}
{"id": "C261", "title": "The algorithm built from the command line takes the replacement's parameter from the selection", "statement": "A selection is built exactly for the seven documented keywords (sharing needing a distance); else an exception. Tournament sizes are at least two and ranking pressures and exponents legal whatever is written; a negative tournament size -n gives a tournament of 2^32 - n. Sequential selection is ordered unless its argument is exactly `unordered`. The argument written for EPTour, SSGADet or SSGAStoch is never looked at: the first argument of the selection is used instead, and if the selection is Roulette or Random without one the behaviour is undefined, exactly then. Every replacement that can be built keeps the population size; with Plus or weak elitism no parent is better than all of the new population.", "quantifier": "for all keywords, arguments, populations, draws", "why_tests_cant": "infinitely many inputs; a test samples a few", "anchors": ["eo/src/do/make_algo_scalar.h: do_make_algo_scalar"]}
{"id": "C262", "title": "The stopping criterion built from the command line stops exactly when asked", "statement": "An exception is thrown exactly if no criterion is asked for. Otherwise the run goes on as long as none of the conditions asked for (generations, generations without improvement, evaluations, target fitness, signal) has held and stops at the first generation at which one does.", "quantifier": "for all parameters, all histories of populations, evaluations and signals", "why_tests_cant": "infinitely many inputs; a test samples a few", "anchors": ["eo/src/do/make_continue.h: do_make_continue", "eo/src/eoCtrlCContinue.h: operator()"]}
{"id": "C263", "title": "The initial population: size, origin, and restarts that restore nothing", "statement": "The initial population has the size asked for. Each place holds the individual of that place in the file read (without its fitness if so asked), or a new one; of too many the first are kept, not the best as the warning says. But as reading a state restores nothing, a restart draws the whole population anew, from a generator that is neither restored nor seeded.", "quantifier": "for all sizes, files, individuals", "why_tests_cant": "infinitely many inputs; a test samples a few", "anchors": ["eo/src/do/make_pop.h: do_make_pop", "eo/src/utils/eoState.cpp: load"]}
{"id": "C264", "title": "Variation operators built from the command line", "statement": "For bit strings the operator is built exactly for parameters in their ranges and every crossover or mutation called then has a positive rate; with all rates zero it is built too and the first call is undefined. For real vectors it is built exactly if both some crossover and some mutation has a rate; with neither an exception is thrown, and with only one of the two - announced as a mere warning - a null pointer is dereferenced.", "quantifier": "for all parameters and draws", "why_tests_cant": "infinitely many inputs; a test samples a few", "anchors": ["eo/src/ga/make_op.h: do_make_op", "eo/src/es/make_op.h: do_make_op", "eo/src/es/make_op_real.h"]}
{"id": "C265", "title": "General replacements and their presets", "statement": "Every general replacement keeps the population size. General, ESComma and Generational are the same: the best offspring, an exception if there are too few. ESPlus keeps the best of all. EP(T) uses tournaments of size T. SSGA(t) is refused for t at most one half or strictly between one and two; else one parent goes by tournament and the best offspring comes.", "quantifier": "for all populations, arguments, draws", "why_tests_cant": "infinitely many inputs; a test samples a few", "anchors": ["eo/src/do/make_general_replacement.h: make_general_replacement, decode_reduce", "eo/src/do/make_algo_easea.h: do_make_algo_scalar"]}
{"id": "C266", "title": "Sharing with a fractional niche size is switched off in multi-objective algorithms", "statement": "The niche size of Sharing(x) is the integer part of x, so any size below one - and distances are usually normalised - becomes zero, and then every individual has diversity zero; a minus sign gives the opposite of the integer part. Without an argument the size is one half.", "quantifier": "for all texts, populations, distances", "why_tests_cant": "infinitely many inputs; a test samples a few", "anchors": ["moeo/src/do/make_ea_moeo.h: do_make_ea_moeo", "moeo/src/diversity/moeoFrontByFrontSharingDiversityAssignment.h"]}
{"id": "C267", "title": "A saved population is loaded back, unless the fitness prints as several words", "statement": "A vector individual, and a population of them, that is written and read again has the same genes, the same fitness (or lack of one) in the same order, and what follows in the stream is left for the next reader, whatever object it is read into. This needs a fitness that prints as one word: with a fitness printing as several words the second word is taken for the number of genes. The feasibility-aware fitness of the library prints as two words, so that reading back what was just written with an individual is undefined, although the fitness alone is read back from a stream of its own if its feasibility was set.", "quantifier": "for all individuals, populations, objects read into, following text, gene formats that restore single values", "why_tests_cant": "infinitely many inputs; a test samples a few", "anchors": ["eo/src/EO.h: printOn, readFrom", "eo/src/eoVector.h: printOn, readFrom", "eo/src/eoPop.h: printOn, readFrom", "eo/src/eoDualFitness.h: operator<<, operator>>"]}
{"id": "C268", "title": "Bit strings are loaded back exactly if they are not empty", "statement": "A bit string that is written and read again is the same exactly if it has at least one bit. An empty one takes the next word of the stream for its bits, so that in a population with one empty bit string all that follow are wrong.", "quantifier": "for all bit strings, populations, following text", "why_tests_cant": "infinitely many inputs; a test samples a few", "anchors": ["eo/src/ga/eoBit.h: printOn, readFrom", "eo/src/eoPop.h: readFrom"]}
{"id": "C269", "title": "Reading past the end marks individuals as evaluated", "statement": "Reading the fitness of an individual from an exhausted stream leaves the old value in place and marks it as valid. For vectors the rest of the reading is undefined; but a file of bit strings that was cut short loads without any complaint, and the missing individuals count as evaluated.", "quantifier": "for all individuals, populations, places at which the file is cut", "why_tests_cant": "infinitely many inputs; a test samples a few", "anchors": ["eo/src/EO.h: readFrom", "eo/src/eoVector.h: readFrom", "eo/src/ga/eoBit.h: readFrom", "eo/src/eoPop.h: readFrom"]}
{"id": "C270", "title": "Evolution-strategy individuals are loaded back", "statement": "Individuals with one deviation, with one per gene, and with correlations are the same after writing and reading, if they have as many deviations (and correlations) as the number of genes asks for. With another number of deviations the reader stops elsewhere, so that what follows is read wrongly.", "quantifier": "for all genes, deviations, correlations, following text", "why_tests_cant": "infinitely many inputs; a test samples a few", "anchors": ["eo/src/es/eoEsSimple.h: printOn, readFrom", "eo/src/es/eoEsStdev.h: printOn, readFrom", "eo/src/es/eoEsFull.h: printOn, readFrom"]}
{"id": "C271", "title": "Individuals that are not loaded back: viruses, aged bit strings, strings, particles", "statement": "Reading a virus that was written gives a bit string with the virus bits glued to its end and leaves the virus part of the object as it was; written on the screen the bits come back but the virus part does not. An aged bit string gets the digits of its age as more bits and keeps the old age. A string individual keeps the old text; in a population the length of the first text becomes the fitness of the second individual. A particle takes the best fitness for its own and keeps old positions and best. Aged vectors are restored, age included.", "quantifier": "for all individuals, objects read into, following text", "why_tests_cant": "infinitely many inputs; a test samples a few", "anchors": ["eo/contrib/MGE/eoVirus.h: printOn, readFrom", "eo/contrib/eoAged.h: printOn, readFrom", "eo/src/other/eoString.h: printOn, readFrom", "eo/src/PO.h: printOn, readFrom", "eo/src/eoVectorParticle.h: printOn"]}
{"id": "C272", "title": "Multi-objective individuals keep genes and objectives, not fitness and diversity", "statement": "A multi-objective vector or bit vector that is written and read again has the same genes and objective values; fitness and diversity are not stored and whatever the object held before remains. When the number of objectives differs between writing and reading, the words are taken for something else.", "quantifier": "for all individuals, populations, objects read into, numbers of objectives", "why_tests_cant": "infinitely many inputs; a test samples a few", "anchors": ["moeo/src/core/MOEO.h: printOn, readFrom", "moeo/src/core/moeoVector.h: printOn, readFrom", "moeo/src/core/moeoBitVector.h: printOn, readFrom", "moeo/src/core/moeoRealObjectiveVector.h: operator<<, operator>>"]}
{"id": "C273", "title": "A saved partition cannot be loaded", "statement": "Reading a partition that was written with at least one selected element is undefined; with none selected the rejected elements are lost; and reading into an object that already holds elements trips an assertion.", "quantifier": "for all partitions, objects read into", "why_tests_cant": "infinitely many inputs; a test samples a few", "anchors": ["mo/src/problems/partition/moBinaryPartition.h: printOn, readFrom"]}
{"id": "C274", "title": "A number or rate of individuals written as a parameter is read back, unless negative", "statement": "A non-negative count or rate that is written and read again stands for the same number of individuals in populations of all sizes. A negative count - all but so many - is written, but reading it back throws.", "quantifier": "for all counts and rates", "why_tests_cant": "infinitely many inputs; a test samples a few", "anchors": ["eo/src/utils/eoHowMany.h: printOn, readFrom"]}
{"id": "C275", "title": "Bounds of vectors of variables written as text and read back", "statement": "The bounds of a vector of variables that are written and read back into an object with no more variables are the same; into a larger object the last group is repeated, so that there are never fewer variables than before. Some texts are taken without complaint for other bounds: an infinite limit written as -infinity or +infinity is read as 0; a blank before the closing bracket makes a limit zero; a repetition count is taken modulo 2^32, so that a negative one makes billions of variables; from a stream only the first word counts. A text without an opening bracket is undefined for an object that has variables and leaves an object that cannot be printed otherwise.", "quantifier": "for all lists of bounds, objects read into, texts around the brackets, repetition counts", "why_tests_cant": "infinitely many inputs; a test samples a few", "anchors": ["eo/src/utils/eoRealVectorBounds.h: printOn, readFrom", "eo/src/utils/eoRealBounds.cpp: eoRealVectorBounds::readFrom, eoGeneralRealBounds::getBoundsFromString", "eo/src/utils/eoRealBounds.h: printOn, readFrom"]}
{"id": "C276", "title": "The kind of bracket does not matter to the bounds of one variable", "statement": "Bounds of one variable (real or integer) that are written are read back, except an interval of one point, which is written and refused. Text in front of the first and behind the second bracket and the direction of the brackets are ignored: ]0,1[ is the closed interval from 0 to 1. An interval that is read is never empty. Texts without two brackets or with one limit throw. For integers what follows the leading digits is dropped, so that 1e3 is 1.", "quantifier": "for all limits, brackets, texts around them", "why_tests_cant": "infinitely many inputs; a test samples a few", "anchors": ["eo/src/utils/eoRealBounds.cpp: eoGeneralRealBounds::getBoundsFromString", "eo/src/utils/eoIntBounds.cpp: eoGeneralIntBounds::getBoundsFromString", "eo/src/utils/eoRealBounds.h: printOn"]}
{"id": "C277", "title": "Integer vectors varied by real operators stay within bounds, but small moves are lost", "statement": "An integer vector that is varied by a real operator gets in every place the nearest integer within the bounds (or the mirror image, when folding), and is untouched if the real operator reports no change. Moves of less than one half are lost, yet reported as changes. If the real operator makes the vector longer the result is undefined; if shorter, the tail stays as it was. A start outside the bounds trips an assertion.", "quantifier": "for all real operators, integer vectors, bounds", "why_tests_cant": "infinitely many inputs; a test samples a few", "anchors": ["eo/src/eoRealToIntMonOp.h: operator()", "eo/src/eoRealToIntQuadOp.h: operator()", "eo/src/eoRealToIntInit.h: operator()"]}
{"id": "C278", "title": "What the virus operators change", "statement": "Flipping a virus bit changes exactly one mark and no gene; mutating flips exactly one marked gene, or reports no change if nothing is marked; transmission copies the virus of the other. A virus shorter than needed is undefined. The shift never makes more marks and never removes the last one, never touches the first place, and with coins all to the right sweeps every mark to the last place. The initialiser with one mark keeps the marks of an object that is used again, and with no place is undefined.", "quantifier": "for all genes, viruses, random draws", "why_tests_cant": "infinitely many inputs; a test samples a few", "anchors": ["eo/contrib/MGE/VirusOp.h: VirusBitFlip, VirusMutation, VirusTransmission, VirusShiftMutation", "eo/contrib/MGE/eoInitVirus.h: eoInitVirus, eoInitVirus1bit", "eo/contrib/MGE/eoVirus.h: virusBitSet, virusBitFlip"]}
{"id": "C279", "title": "The initialiser of evolution strategies made from the command line", "statement": "An initialiser that is made has at least as many variables as asked for and never none: asking for none is undefined. Bounds that do not limit every variable are refused. A deviation given as x% is x times - not x hundredths of - the range of each variable, and the parameter that is saved afterwards holds x without the sign, so that the same parameters used again give the deviation x to all variables. Without the sign there must be exactly as many bounds as variables asked for, and more of them trip an assertion. A text that starts with the sign is undefined.", "quantifier": "for all parameter texts, numbers of variables, readers of numbers", "why_tests_cant": "infinitely many inputs; a test samples a few", "anchors": ["eo/src/es/make_genotype_real.h: do_make_genotype", "eo/src/es/eoEsChromInit.h: eoEsChromInit", "eo/src/es/eoRealInitBounded.h: eoRealInitBounded"]}
{"id": "C280", "title": "The operator of evolution strategies made from the command line", "statement": "An operator is made exactly if the bounds can be read, the description is SGA, both probabilities are between zero and one, and the kinds of recombination have known names; it is then the one that was named, and other names throw. Three short names stand for two parameters each: any text given with -C throws or switches the crossover off; no text given with -S works unless the deviation is scaled; -B sets the bounds of the initialisation and those of the variables. There are never fewer bounds than variables; with more the mutation goes out of range.", "quantifier": "for all parameter texts, numbers of variables, readers of numbers", "why_tests_cant": "infinitely many inputs; a test samples a few", "anchors": ["eo/src/es/make_op_es.h: do_make_op", "eo/src/es/make_genotype_real.h: do_make_genotype", "eo/src/utils/eoParser.h: getORcreateParam"]}
{"id": "C281", "title": "The learning rates of self-adaptive mutation scale with the number of bounds as prescribed", "statement": "With one deviation the rate is the given number divided by the root of twice the number of bounds. With one deviation for each variable the global rate is that too, and the local one is the given number divided by the root of twice the root of the number of bounds: for equal numbers the local rate is at least the global one, and both fall as bounds are added.", "quantifier": "for all given rates, numbers of bounds", "why_tests_cant": "infinitely many inputs; a test samples a few", "anchors": ["eo/src/es/eoEsMutate.h: TauGlobal, TauLcl", "eo/src/es/eoEsMutationInit.h: eoEsMutationInit"]}
{"id": "C282", "title": "Copies of bounds of vectors share what they hold", "statement": "A copy of the bounds of a vector holds the same objects. Reading new bounds into the copy leaves the original as it was. Reading new bounds into the original destroys the objects of the copy: using the copy is then undefined.", "quantifier": "for all heaps, lists of bounds, texts read", "why_tests_cant": "infinitely many inputs; a test samples a few", "anchors": ["eo/src/utils/eoRealVectorBounds.h: eoRealVectorBounds", "eo/src/utils/eoRealBounds.cpp: eoRealVectorBounds copy constructor, readFrom"]}
{"id": "C283", "title": "Neighbours that flip each bit with a given probability, and the statistics on neighbours", "statement": "A neighbour holds exactly the positions whose coin fell, in increasing order, whatever it held before; the move inverts these bits and no others, and moving back restores the solution. If no coin falls the neighbour is the solution itself. An exploration sees as many neighbours as asked for, but at least one. The statistic on the best neighbour is the best value among all neighbours or among as many as asked for; the one on a single neighbour is the first. Without neighbours both give the default value of the type.", "quantifier": "for all coins, sizes, previous neighbours, lists of fitness values", "why_tests_cant": "infinitely many inputs; a test samples a few", "anchors": ["mo/src/problems/bitString/moBitFlipNeighborhood.h: init, next, cont", "mo/src/continuator/moNeighborBestStat.h: operator()", "mo/src/continuator/moNeighborFitnessStat.h: operator()"]}
{"id": "C284", "title": "Fuzzy domination holds for every pair of vectors of minimised objectives", "statement": "If no maximised objective differs beyond the tolerance, the fuzzy comparator holds for every pair of vectors, in both directions and for a vector with itself, because the outcome for no domination is the number of total domination. Once a maximised objective differs only the minimised ones decide; with maximised objectives only, no vector dominates a different one. Vectors count as equal as long as every objective agrees in one of its three numbers. The first distance ignores the most plausible value, the second one the spread.", "quantifier": "for all vectors of triangular numbers, tolerances, directions", "why_tests_cant": "infinitely many inputs; a test samples a few", "anchors": ["moeo/src/comparator/moeoFuzzyParetoComparator.h: compareTriangNum, operator()", "moeo/src/distance/moeoBertDistance.h: operator()", "moeo/src/distance/moeoExpectedFuzzyDistance.h: operator()", "moeo/src/core/moeoFuzzyRealObjectiveVector.h: operator=="]}
{"id": "C285", "title": "Interval arithmetic contains every result, and without rounding nothing else", "statement": "As long as lower ends are rounded down and upper ends up, the sum, difference, product, quotient (by the numbers of the divisor that are not zero), opposite, inverse, square, square root and multiple of intervals, infinite ends included, contain the result for every choice of numbers. Without rounding the sum, difference, product and quotient by an interval without zero are exactly the sets of results. With one rounding for both ends, as the symbolic regression has it, the sum of two numbers is in the sum of their intervals only if it is not rounded. A power rounds its lower end up too and can miss the value; `fmod` takes the same multiple off the whole interval and does not contain all remainders.", "quantifier": "for all intervals, numbers, roundings", "why_tests_cant": "infinitely many inputs; a test samples a few", "anchors": ["eo/contrib/boost/numeric/interval/arith.hpp: operator+, operator-, operator*, operator/", "eo/contrib/boost/numeric/interval/detail/division.hpp: div_non_zero, div_positive, div_negative, div_zero", "eo/contrib/boost/numeric/interval/arith2.hpp: pow, square, sqrt, fmod, multiplicative_inverse", "eo/contrib/mathsym/eval/Interval.h: Policy"]}
{"id": "C286", "title": "Intervals behave as sets, and a comparison that is not certain throws", "statement": "Membership, inclusion, equality, intersection, hull, overlap, bisection, absolute value, norm, maximum and minimum of intervals, empty and infinite ones included, are those of the sets of numbers. The comparisons <, <= and == answer yes if all pairs of numbers are so related, no if none is, and throw otherwise, and for empty intervals. The explicit comparisons are about all pairs or some pair, except that they do not check for the empty interval, which is possibly different from every interval.", "quantifier": "for all intervals, numbers", "why_tests_cant": "infinitely many inputs; a test samples a few", "anchors": ["eo/contrib/boost/numeric/interval/utility.hpp: intersect, hull, subset, overlap, bisect, abs, norm", "eo/contrib/boost/numeric/interval/interval.hpp: operator<, operator<=, operator==", "eo/contrib/boost/numeric/interval/compare/explicit.hpp: cerlt, poslt, posne"]}
{"id": "C287", "title": "The functions on intervals contain every value, so that the check of bounds can rely on them", "statement": "Exponential, logarithm, trigonometric and hyperbolic functions and their inverses, applied to an interval, contain the value at every number of the interval that has one; a cosine never needs more than two nested calls; the constants enclose pi. An interval around zero gets zero as the lower end of its hyperbolic cosine. In exact arithmetic the functions as the symbolic regression uses them give finite ends only where there is a value everywhere: an expression accepted by the check of bounds has a value within the reported bounds on all inputs in the box.", "quantifier": "for all intervals, numbers, roundings of the functions, expressions", "why_tests_cant": "infinitely many inputs; a test samples a few", "anchors": ["eo/contrib/boost/numeric/interval/transc.hpp: exp, log, cos, sin, tan, asin, acos, cosh, acosh, atanh", "eo/contrib/boost/numeric/interval/constants.hpp: pi_lower, pi_upper", "eo/contrib/mathsym/eval/Interval.h: sqrt, asin, acos, acosh", "eo/contrib/mathsym/eval/BoundsCheck.cpp: in_bounds"]}
{"id": "C288", "title": "Restarts distributed over workers give one individual per run; only the static assignment makes them independent of timing", "statement": "Whatever the order in which messages travel and workers compute, restarts that are over have given exactly one individual per run; those of one worker are, in order, the results of its successive runs; every worker was told once to stop and no message is left. Every execution ends after at most four steps per run and three more (with the static assignment, if at least as many runs were announced as are asked for). With the static assignment and the announced number of runs two executions give the same individuals, up to their order; with the dynamic assignment they can differ. With the reset that goes on with the same population, the individuals of a worker get no worse from run to run if the algorithm never loses its best; with the reset to the original population, an algorithm without memory gives the same individual every time.", "quantifier": "for all numbers of workers and runs, algorithms, orders of the messages", "why_tests_cant": "infinitely many inputs; a test samples a few", "anchors": ["eo/src/mpi/eoMultiStart.h: MultiStart, SendTaskMultiStart, HandleResponseMultiStart, ProcessTaskMultiStart, IsFinishedMultiStart, ReuseSamePopEA, ReuseOriginalPopEA", "eo/src/mpi/eoMpi.h: Job::master, Job::worker"]}
{"id": "C289", "title": "Seeds of the workers: multiples of a number can repeat", "statement": "Every worker gets a seed, the one announced in its place or else one drawn by the master. With the multiples of a number, two workers whose places differ by d draw the same random numbers for ever exactly if 2^31 divides d times the number; with an odd number, up to 2^31 workers draw different numbers, with 2^30 the third worker repeats the first. The multiples go on from job to job.", "quantifier": "for all numbers of workers, seeds, numbers", "why_tests_cant": "infinitely many inputs; a test samples a few", "anchors": ["eo/src/mpi/eoMultiStart.h: MultiStart, MultiplesOfNumber, GetRandomSeeds", "eo/src/utils/eoRNG.h: reseed"]}
{"id": "C290", "title": "What the communicator delivers: texts up to the first null character, tables, no broadcast", "statement": "The texts received are the texts sent, each up to its first null character, whatever was received before with the same communicator; the buffer is always large enough. An object whose text has no null character is received as it was packed; a null character in a string cuts the text and the parser reads outside of it. A table is received entry by entry; asking for fewer entries gives the first ones, asking for more reads outside. A broadcast changes no variable: the processes other than the root keep the value they had.", "quantifier": "for all texts, objects, tables, earlier contents of the buffer", "why_tests_cant": "infinitely many inputs; a test samples a few", "anchors": ["eo/src/mpi/implMpi.cpp: communicator::send, communicator::recv, broadcast", "eo/src/mpi/implMpi.h: communicator::send, communicator::recv"]}
{"id": "C291", "title": "What the file of a file monitor holds", "statement": "After any number of calls the file holds: with overwriting, the last values only and never the names; otherwise what was there before if it is kept, else the names if they are asked for, and then one line of values per call. If no name or value contains the separator or a newline, reading the lines back gives exactly that table. Names are never written if the existing file is kept. A monitor without parameters is undefined from its first call.", "quantifier": "for all parameters, values, numbers of calls, former contents, options", "why_tests_cant": "infinitely many inputs; a test samples a few", "anchors": ["eo/src/utils/eoFileMonitor.h: eoFileMonitor", "eo/src/utils/eoFileMonitor.cpp: operator(), printHeader"]}
{"id": "C292", "title": "The columns of a monitor on a stream are aligned, but not with their names", "statement": "A monitor on a stream writes the names once and then a row of padded values per call. If the values fit in the width, the i-th value of every row begins at the same place. The first name is not padded: the other names begin above their values only if the first name has exactly the width. Afterwards the stream is left with the width: whatever is written next on it, by whomever, is padded too.", "quantifier": "for all parameters, values, widths, delimiters, numbers of calls", "why_tests_cant": "infinitely many inputs; a test samples a few", "anchors": ["eo/src/utils/eoOStreamMonitor.h: eoOStreamMonitor", "eo/src/utils/eoOStreamMonitor.cpp: operator()"]}
{"id": "C293", "title": "Snapshots of three or more vectors repeat the second one", "statement": "A file is written at the calls 0, f, 2f, ... for a frequency f, and the number in its name is one more than that of the call; a frequency of 0 divides by zero. A single vector is written with a line per value; of several vectors the file has the first in its first column and the second in all others: the third and later ones are never read, not even their sizes are compared. No vector at all is undefined.", "quantifier": "for all vectors, frequencies, numbers of calls", "why_tests_cant": "infinitely many inputs; a test samples a few", "anchors": ["eo/src/utils/eoFileSnapshot.h: eoFileSnapshot::operator(), setCurrentFileName"]}
{"id": "C294", "title": "A timed monitor with an interval of more than 71 minutes fires only once", "statement": "A timed monitor calls its monitors at its first call and then exactly if its interval has passed since the last time, as long as it is asked within 2^32 microseconds of processor time; later, the time is taken modulo 2^32 and the call can be missed. With an interval of 4295 seconds or more the monitors are called the first time and never again. The time counter gives processor time during the first 2140 seconds and elapsed time afterwards, and so can go back.", "quantifier": "for all intervals, sequences of clock readings", "why_tests_cant": "infinitely many inputs; a test samples a few", "anchors": ["eo/src/utils/eoTimedMonitor.h: eoTimedMonitor::operator()", "eo/src/utils/eoTimeCounter.h: eoTimeCounter::operator()"]}
{"id": "C295", "title": "User and system times are one second too much whenever the microseconds wrap", "statement": "A measure of a timer is the number of full seconds or one more: one more whenever the microseconds are less than at the start, and whenever the remainders of earlier measures make up a second. Over a series of measures the seconds reported and the remainder make up the time measured plus, for each measure whose microseconds wrapped, twice the missing microseconds; so the sum is right exactly as long as none wraps. Asking twice at the same time can give different answers. The wall clock is exact.", "quantifier": "for all series of measures, times", "why_tests_cant": "infinitely many inputs; a test samples a few", "anchors": ["eo/src/utils/eoTimer.h: eoTimer::usertime, systime, wallclock, restart"]}
{"id": "C296", "title": "What the logger writes", "statement": "A text is written exactly if the last level sent before it, in the same statement or an earlier one, is at most the level selected last, and the last file or standard stream given could be opened. Texts sent before any level are always written. Selecting a higher level never loses a text. Selecting by name: if the compiler compares the enumeration as a signed number, the level of that name, and quiet for an unknown name; otherwise every name selects everything. After a file that cannot be opened everything is lost without a word.", "quantifier": "for all sequences of levels, texts, selections and redirections", "why_tests_cant": "infinitely many inputs; a test samples a few", "anchors": ["eo/src/utils/eoLogger.cpp: operator<<, outbuf::overflow, setlevel", "eo/src/utils/eoLogger.h: eoLogger, Levels"]}
{"id": "C297", "title": "A checkpoint on a signal asks its criteria only after a signal", "statement": "A check of a checkpoint on a signal runs it exactly if at least one signal came since the check before, however many came; otherwise it answers that the run goes on without asking any criterion, so without signals a run with only that criterion never ends. The other kind calls its function once at each check before which a signal came and never stops the run; a second one cannot be made.", "quantifier": "for all sequences of signals and checks", "why_tests_cant": "infinitely many inputs; a test samples a few", "anchors": ["eo/src/utils/eoSignal.h: eoSignal::operator(), handler", "eo/src/eoSIGContinue.h: eoSIGContinue", "eo/src/eoSIGContinue.cpp: set_bool"]}
{"id": "C298", "title": "When and where monitors and archives are saved", "statement": "Monitors of a local search with an interval are called at the iterations 0, interval, 2 * interval, ... The file of a binary metric gets a line for each non-empty population but the first, numbered from 1, with the metric against the one before. An archive saver with a counter writes every generation to a different file and savers of one name with different identifiers never share one; without a counter it writes to one file. A saver with a counter and no identifier writes at generation k to the file of the saver with the identifier k.", "quantifier": "for all intervals, sequences of populations, names, identifiers, counters below 2^32", "why_tests_cant": "infinitely many inputs; a test samples a few", "anchors": ["mo/src/continuator/moCounterMonitorSaver.h: operator()", "moeo/src/utils/moeoBinaryMetricSavingUpdater.h: operator()", "moeo/src/utils/moeoArchiveObjectiveVectorSavingUpdater.h: operator()"]}
{"id": "C299", "title": "The best fitness seen and limits on a parameter", "statement": "After a local search the statistic of the best fitness holds a fitness that was seen and none that was seen is better: in this search if it is reset for each search or this is the first, in all searches otherwise. Without a reset, the first solution of a later search is not looked at. A limit on a parameter continues the search until the parameter has grown by the maximum since the start of the search or, without a restart, since 0; if it goes back below its start the search stops.", "quantifier": "for all sequences of fitness values, searches, parameters", "why_tests_cant": "infinitely many inputs; a test samples a few", "anchors": ["mo/src/continuator/moBestFitnessStat.h: init, operator()", "mo/src/continuator/moValueParamContinuator.h: init, operator()"]}
{"id": "C300", "title": "An evolutionary algorithm on worker threads is the sequential one, if it is given the right evaluator", "statement": "For an evaluator of single individuals without shared state, every number of workers from one, both policies and every interleaving of the threads, a run gives the same offspring in every generation, the same number of generations, the same final population and the same errors as the sequential algorithm. If the algorithm is made with an evaluator of populations only, the offspring are never evaluated: what the replacement gets is what breeding left. Without workers the constructor fails its assertion.", "quantifier": "for all breedings, replacements, criteria that do not look at the number of evaluations, populations, numbers of workers, interleavings", "why_tests_cant": "infinitely many inputs; a test samples a few", "anchors": ["smp/src/MWModel.cpp: MWModel", "smp/src/MWAlgo/eoEasyEA.cpp: operator()", "eo/src/eoEasyEA.h: eoEasyEA, eoDummyEval"]}
{"id": "C301", "title": "An asynchronous particle swarm becomes a synchronous one on worker threads", "statement": "The synchronous swarm on workers does in every generation what the sequential one does, for every interleaving. The asynchronous swarm on workers does what the synchronous one does, which is not what the asynchronous one does. A synchronous swarm made with an evaluator of populations only throws in its first generation on workers.", "quantifier": "for all swarms, topologies, velocities, flights, numbers of workers, interleavings", "why_tests_cant": "infinitely many inputs; a test samples a few", "anchors": ["smp/src/MWAlgo/eoEasyPSO.cpp: operator()", "smp/src/MWAlgo/eoSyncEasyPSO.cpp: operator()", "eo/src/eoEasyPSO.h: eoEasyPSO", "eo/src/eoSyncEasyPSO.h: eoSyncEasyPSO"]}
{"id": "C302", "title": "A command without a number gives the fitness zero", "statement": "A solution that has a fitness is left alone and no command is run. Otherwise exactly one line is given to the shell and remembered: the parts separated by blanks, with the tag INVALID before the representation. The evaluation succeeds exactly if the command could be started, returned zero and printed something that is not blank; the fitness is then the number printed, or zero if there is none; in all other cases the solution is unchanged. All of the output is read, whatever the size of the buffer from two on, unless it has characters of code zero; with a buffer of one the evaluation never ends.", "quantifier": "for all commands, solutions, outputs, return codes, buffer sizes", "why_tests_cant": "infinitely many inputs; a test samples a few", "anchors": ["eo/src/eoEvalCmd.h: eoEvalCmd::operator(), call, last_call", "eo/src/eoScalarFitness.h: operator>>"]}
{"id": "C303", "title": "Evaluation through a named pipe that is an ordinary file gives zero", "statement": "A solution that has a fitness is left alone. Otherwise its text is written on a line, and its fitness is the number the program at the other end answers. If only one name is given and it is an ordinary file, the evaluation reads its own text and every solution gets the fitness zero without error; with two ordinary files all solutions get the same fitness.", "quantifier": "for all programs, solutions, names", "why_tests_cant": "infinitely many inputs; a test samples a few", "anchors": ["eo/src/eoEvalNamedPipe.h: eoEvalNamedPipe::operator(), call"]}
{"id": "C304", "title": "What dumped solutions leave on the disk", "statement": "After a sequence of evaluations there is one file for each solution, with different names, holding the evaluated solution and nothing else; all other files are unchanged. With a single file only the last solution is kept. A file that cannot be opened is an exception in debugging builds; in others the solution is lost without notice and its number is used up.", "quantifier": "for all sequences of solutions, names, first numbers that do not make the counter wrap", "why_tests_cant": "infinitely many inputs; a test samples a few", "anchors": ["eo/src/eoEvalDump.h: eoEvalDump::operator(), dump, file_count"]}
{"id": "C305", "title": "A line sent through a pipe is a format", "statement": "A line sent to another program arrives as it is if and only if it has no percent sign; the function that sends a number of characters sends them as they are. Waiting for a line given with its newline ends exactly after its first occurrence among lines that fit into the buffer, and fails at the end of the text if it does not occur. A text given without newline is never found, nor is one of more than 255 characters.", "quantifier": "for all lines, texts of programs", "why_tests_cant": "infinitely many inputs; a test samples a few", "anchors": ["eo/src/utils/pipecom.cpp: PipeComSend, PipeComSendn, PipeComReceive, PipeComWaitFor", "eo/src/utils/eoGnuplot.cpp: gnuplotCommand"]}
{"id": "C306", "title": "What a foundry of evolutionary algorithms assembles", "statement": "An algorithm is made if and only if each of the five slots is encoded by the index of one of its operators, in debugging builds and in others; otherwise there is an error, always an exception in builds without debugging. The length of the encoding is only checked in debugging builds. In two runs with the same encoding crossover, mutation, selection and replacement are the same objects and keep their state, the continuator is a new one and the former one is deleted.", "quantifier": "for all encodings, slots, numbers of operators", "why_tests_cant": "infinitely many inputs; a test samples a few", "anchors": ["eo/src/eoAlgoFoundry.h: eoAlgoFoundry::select, rank", "eo/src/eoAlgoFoundryEA.h: eoAlgoFoundryEA::operator()", "eo/src/eoForge.h: eoForgeVector::instantiate"]}
{"id": "C307", "title": "How long an algorithm of a foundry runs", "statement": "Whatever operators are chosen, a run ends after at most the maximal number of generations given to the foundry and at least one, also if that maximum is zero; with a continuator that never stops it has exactly that number of generations.", "quantifier": "for all operators, continuators, encodings, populations", "why_tests_cant": "infinitely many inputs; a test samples a few", "anchors": ["eo/src/eoAlgoFoundryEA.h: eoAlgoFoundryEA::operator()", "eo/src/eoGenContinue.h: eoGenContinue", "eo/src/eoCombinedContinue.h: eoCombinedContinue"]}
{"id": "C308", "title": "Whom IBEA keeps", "statement": "In every generation of IBEA as many individuals as there were parents are kept, all of them parents or offspring, nobody left out dominates somebody kept, and the fitness of everybody kept is minus the sum of the penalties received from the others kept, with the bounds of parents and offspring together. With the hypervolume this needs a reference point strictly beyond the bounds: with the smallest value allowed somebody who dominates a kept one can be left out. Being non-dominated does not protect: a non-dominated vector can be left out while a dominated one is kept. A run on a population that is not empty is never undefined and keeps its size.", "quantifier": "for all parents, offspring, numbers of objectives, directions, scales kappa above zero, both metrics", "why_tests_cant": "infinitely many inputs; a test samples a few", "anchors": ["moeo/src/algo/moeoIBEA.h: operator()", "moeo/src/fitness/moeoExpBinaryIndicatorBasedFitnessAssignment.h: operator(), updateByDeleting", "moeo/src/replacement/moeoEnvironmentalReplacement.h: operator()"]}
{"id": "C309", "title": "IBEA does not depend on the units of the objectives", "statement": "If every objective is multiplied by a positive number and shifted, different ones for different objectives, then IBEA keeps the same individuals in the same places with the same fitness values, in one generation and in a whole run whose variation and stopping criterion do not look at the units; also if an objective does not vary at all.", "quantifier": "for all populations, positive factors, shifts, both metrics, all scales", "why_tests_cant": "infinitely many inputs; a test samples a few", "anchors": ["moeo/src/algo/moeoIBEA.h: operator()", "moeo/src/metric/moeoNormalizedSolutionVsSolutionBinaryMetric.h: setup", "moeo/src/metric/moeoAdditiveEpsilonBinaryMetric.h: operator()", "moeo/src/metric/moeoHypervolumeBinaryMetric.h: operator()"]}
{"id": "C310", "title": "MOGA remembers the places of copies", "statement": "As long as no vector occurs twice among parents and offspring, a generation of MOGA keeps as many individuals as there were parents, gives everybody minus one minus the number of those who dominate it, leaves out nobody who dominates a kept one, and keeps either only non-dominated ones or all of them. A place at which a copy of an earlier vector was found once is treated as a copy in all later generations: whoever sits there gets the smallest fitness of all, whatever it dominates; if the place does not exist any more the next generation is undefined. So two equal individuals in the first population suffice to lose a vector that no vector evaluated dominates, and to keep one it dominates.", "quantifier": "for all strict dominance relations, populations, variations, diversities, orders of equals, numbers of generations", "why_tests_cant": "infinitely many inputs; a test samples a few", "anchors": ["moeo/src/algo/moeoMOGA.h: operator()", "moeo/src/fitness/moeoDominanceRankFitnessAssignment.h: operator()", "moeo/src/utils/moeoDominanceMatrix.h: operator(), copySet", "moeo/src/replacement/moeoElitistReplacement.h: operator()"]}
{"id": "C311", "title": "What a checkpoint made from the command line prints", "statement": "For every combination of the options of make_checkpoint without the Ctrl-C monitor, every generation of a run prints exactly one line for each output asked for, with exactly the columns asked for, and every value in it is that of the same generation, whatever the statistics compute. The time is in the file and the plot only if something is printed on the screen. The results directory is looked at if and only if a file, a plot or a saved state is asked for, also if the plot is then not made because there is no gnuplot.", "quantifier": "for all options, statistics, populations, criteria, lengths of runs", "why_tests_cant": "infinitely many inputs; a test samples a few", "anchors": ["eo/src/do/make_checkpoint.h: do_make_checkpoint", "eo/src/utils/eoCheckPoint.h: operator()"]}
{"id": "C312", "title": "What the Ctrl-C monitor shows", "statement": "With the monitor that waits for Ctrl-C the screen shows a line in the generations with a signal only, and every value in it is that of the generation. The files are written in every generation with the values of that generation except the time, which is the one of the last generation with a signal before it, and the initial one if there was none.", "quantifier": "for all options, signals, statistics, criteria, lengths of runs", "why_tests_cant": "infinitely many inputs; a test samples a few", "anchors": ["eo/src/do/make_checkpoint.h: do_make_checkpoint", "eo/src/utils/eoSignal.h: operator()"]}
{"id": "C313", "title": "Which states a run saves", "statement": "In runs of fewer than 2^32 - 2 generations the states saved by frequency are those whose number is a multiple of it, and the last one, written twice if its number is a multiple; with frequency zero only the last one, without the option none. The states saved by time are those of the first generations at least that many seconds after the one saved before, none if the interval is zero. Printing and signals do not change this.", "quantifier": "for all options, clocks, signals, criteria, lengths of runs below the bound", "why_tests_cant": "infinitely many inputs; a test samples a few", "anchors": ["eo/src/do/make_checkpoint.h: do_make_checkpoint", "eo/src/utils/eoUpdater.cpp: eoCountedStateSaver::operator(), lastCall, eoTimedStateSaver::operator()"]}
{"id": "C314", "title": "The checkpoints with fitness-distance correlation and with terms", "statement": "The checkpoint with the fitness-distance correlation reads a null pointer if the file of the best fitness is asked for but not its printing; in all other cases it prints per generation one line for each output asked for, with the values of this generation. The checkpoint for fitnesses with terms reads a term that does not exist if the fitness has none; otherwise it prints per generation what is asked for, with the values of this generation.", "quantifier": "for all options, numbers of terms, statistics, criteria, lengths of runs", "why_tests_cant": "infinitely many inputs; a test samples a few", "anchors": ["eo/src/do/make_checkpoint_FDC.h: do_make_checkpoint", "eo/src/do/make_checkpoint_assembled.h: do_make_checkpoint_assembled"]}
{"id": "C315", "title": "The checkpoint of multi-objective runs", "statement": "The checkpoint made for multi-objective runs never prints anything, also if the population is asked for. In every generation the archive is updated before it is stored and before contribution and entropy are computed. States are saved as by the one of single-objective runs.", "quantifier": "for all options, clocks, criteria, lengths of runs below 2^32 - 2", "why_tests_cant": "infinitely many inputs; a test samples a few", "anchors": ["moeo/src/do/make_checkpoint_moeo.h: do_make_checkpoint_moeo"]}
{"id": "C316", "title": "What happens to the results directory", "statement": "A results directory that does not exist is made; that it cannot be made is not noticed. One that exists is refused without leave to erase, even if it is empty; with it, its files are removed except the hidden ones, and its directories and everything elsewhere stay. An empty name with leave to erase removes the files of the root directory. A name with a blank makes two directories, and does not erase or refuse existing ones.", "quantifier": "for all directories, contents, names", "why_tests_cant": "infinitely many inputs; a test samples a few", "anchors": ["eo/src/utils/make_help.cpp: testDirRes", "eo/src/do/make_checkpoint.h: do_make_checkpoint"]}
{"id": "C317", "title": "What exceptions tell a handler", "statement": "A handler of std::exception that asks what() gets the empty text from the exceptions for population sizes, times, evaluations, parameters, system calls and files, although message() of the same object is not empty and tells the arguments; for all other classes the two agree. The error thrown by the parallel master when a task fails therefore says only that it was in the loop, for all these exceptions.", "quantifier": "for all exception classes and arguments of their constructors", "why_tests_cant": "infinitely many inputs; a test samples a few", "anchors": ["eo/src/eoExceptions.h: eoException::what, message of all classes", "eo/src/mpi/eoMpi.h: run loop of the worker"]}
{"id": "C318", "title": "How long simulated annealing runs when made with few arguments", "statement": "Simulated annealing made with a continuator and no schedule does exactly one iteration whatever the continuator says, and takes the neighbour in it only if it is better. Made with a temperature, a factor, a span and a final temperature it stops after max(1, k (span + 1)) iterations unless the continuator stops it before, k being the first number of coolings that brings the temperature to the final one; with the defaults these are 6666 iterations.", "quantifier": "for all problems, neighbourhoods, random draws, continuators, positive temperatures and factors below one", "why_tests_cant": "infinitely many inputs; a test samples a few", "anchors": ["mo/src/algo/moSA.h: moSA constructors", "mo/src/coolingSchedule/moSimpleCoolingSchedule.h"]}
{"id": "C319", "title": "Which moves tabu search made with a size takes", "statement": "In every iteration tabu search made with the size of the tabu list takes the best neighbour that is not forbidden, and stays where it is exactly if all are: forbidden are the moves equal to one of the last size moves made, unless they lead to a solution better than every one the search has been at. With size zero the first move made is followed by a division by zero.", "quantifier": "for all problems, neighbourhoods, equalities of moves, sizes, numbers of iterations", "why_tests_cant": "infinitely many inputs; a test samples a few", "anchors": ["mo/src/algo/moTS.h: moTS constructors", "mo/src/memory/moNeighborVectorTabuList.h", "mo/src/memory/moBestImprAspiration.h", "mo/src/explorer/moTSexplorer.h"]}
{"id": "C320", "title": "When the multi-objective programs stop", "statement": "The continuator made from the command line for multi-objective programs goes on as long as none of the conditions asked for holds and stops at the end of the first generation in which one does: number of generations (100 if not given), evaluations, seconds since it was made, Ctrl-C (asked for if not given). An exception is thrown exactly if all four are switched off.", "quantifier": "for all options, clocks, signals, runs", "why_tests_cant": "infinitely many inputs; a test samples a few", "anchors": ["moeo/src/do/make_continue_moeo.h: do_make_continue_moeo", "eo/src/eoTimeContinue.h: operator()"]}
{"id": "C321", "title": "Fitness from a metric of one objective vector", "statement": "Every individual keeps its genome and its objective vector, is evaluated if that was invalid and an evaluator was given, and gets the value of its vector; without an evaluator an invalid vector makes the assignment throw. Unless told otherwise the constructors with and without an evaluator rank individuals of non-negative metric in opposite orders, because one takes the reciprocal; the reciprocal of a negative metric stays below that of a positive one.", "quantifier": "for all metrics, evaluators, populations", "why_tests_cant": "infinitely many inputs; a test samples a few", "anchors": ["moeo/src/scalarStuffs/fitness/moeoMetricFitnessAssignment.h: constructors, operator()"]}
{"id": "C322", "title": "What the store of functors deletes", "statement": "When the store goes out of scope everything stored is deleted and nothing else, provided every functor was on the heap and was stored only once; otherwise the behaviour is undefined. A debug build warns exactly when a functor is stored again and says how often it has been.", "quantifier": "for all heaps and sequences of functors", "why_tests_cant": "infinitely many inputs; a test samples a few", "anchors": ["eo/src/eoFunctorStore.h: storeFunctor", "eo/src/eoFunctorStore.cpp: ~eoFunctorStore"]}
{"id": "C323", "title": "The checkpoint of estimation of distribution algorithms", "statement": "At every call all statistics are computed, then all updaters, then all monitors are called, then every continuator is asked, each once and in the order of adding, also those that come after one that said stop. The answer is to stop if one of them says so, and exactly then statistics, updaters and monitors are told that this was the last call.", "quantifier": "for all numbers of statistics, updaters, monitors and continuators, all states and answers", "why_tests_cant": "infinitely many inputs; a test samples a few", "anchors": ["edo/src/utils/edoCheckPoint.h: operator()"]}
{"id": "C324", "title": "Snapshots of estimation of distribution algorithms", "statement": "A snapshot is written at the calls whose number, from 0, is a multiple of the frequency, in the file whose number is one more, and has the values of that call separated by the delimiter; the list of files has their names in order and everything else in the directory is as the constructor left it. The constructor removes the files beginning like the snapshots if asked to and empties the list of files in any case, also if the files listed in it are kept. A frequency of zero or no value is undefined behaviour.", "quantifier": "for all configurations, directories, sequences of fewer than 2^32 calls", "why_tests_cant": "infinitely many inputs; a test samples a few", "anchors": ["edo/src/utils/edoFileSnapshot.cpp: constructor, operator()"]}
{"id": "C325", "title": "Difference of hypervolumes of dual objective vectors", "statement": "For non-empty sets whose vectors are all feasible or all infeasible it is the ordinary difference of hypervolumes of the values, whichever way the dual fitness is compared. An empty set, or a feasible and an infeasible vector in the two sets, fails an assertion.", "quantifier": "for all sets, reference points, factors, directions of objectives", "why_tests_cant": "infinitely many inputs; a test samples a few", "anchors": ["moeo/src/metric/moeoDualHyperVolumeDifferenceMetric.h: setup, operator()"]}
{"id": "C326", "title": "What the program for irace offers and how long it runs", "statement": "A choice among operators is offered as the numbers of the operators and commented out exactly if there is only one; if there is none the operator number 0 is offered although it does not exist. A range of whole numbers is commented out exactly if it has one element, one that is upside down is offered as it is, one of reals is then commented out. The number of generations is at least one, generations times population size does not exceed the evaluations if a population does not, and one more generation would; a population size of zero is undefined behaviour.", "quantifier": "for all numbers of operators, ranges, evaluations, population sizes", "why_tests_cant": "infinitely many inputs; a test samples a few", "anchors": ["eo/contrib/irace/fastga.cpp: print_irace_categorical, print_irace_ranged, main"]}
{"id": "C327", "title": "Distances of objective vectors", "statement": "The Manhattan and the Euclidean distance are never negative, symmetric and satisfy the triangle inequality, and are zero exactly if the vectors agree in every objective whose scale is not zero. Without a normaliser they are the usual ones; the Euclidean distance does not exceed the Manhattan distance, which does not exceed it times the square root of the number of objectives. With the normaliser of the population of vectors, the distance of two of them does not depend on the units and zero points in which the objectives are measured.", "quantifier": "for all numbers of objectives, vectors, scales, populations, units", "why_tests_cant": "infinitely many inputs; a test samples a few", "anchors": ["moeo/src/distance/moeoManhattanDistance.h: operator()", "moeo/src/distance/moeoEuclideanDistance.h: operator()", "moeo/src/utils/moeoObjVecStat.h, moeo/src/utils/moeoObjectiveVectorNormalizer.h"]}
{"id": "C328", "title": "What a distance refers to", "statement": "A Euclidean distance made with a normaliser is undefined behaviour at every use, as are its copies, whatever happens to the normaliser. A Manhattan distance made with a normaliser always uses the present state of that normaliser and is undefined once it is gone. A copy of a distance made without a normaliser is undefined once the original is gone.", "quantifier": "for all sequences of constructions, copies, destructions and changes of normalisers", "why_tests_cant": "infinitely many inputs; a test samples a few", "anchors": ["moeo/src/distance/moeoEuclideanDistance.h: constructors", "moeo/src/distance/moeoManhattanDistance.h: constructors"]}
{"id": "C329", "title": "What a vector monitor records", "statement": "A monitor for a double, an unsigned number, a long long, a solution or a scalar fitness of double or long long has, after any calls, exactly the values the parameter had at the calls, in order; for any other type the constructor accepts the parameter and the first call is undefined behaviour. The table of a sampling whose monitors were called equally often has one row per call with the values in the order of the monitors; a file that is continued gets no line of names.", "quantifier": "for all types of parameter, sequences of values, numbers of monitors", "why_tests_cant": "infinitely many inputs; a test samples a few", "anchors": ["mo/src/continuator/moVectorMonitor.h: constructors, operator()", "mo/src/sampling/moSampling.h: fileExport"]}
{"id": "C330", "title": "Sampling of adaptive walks", "statement": "Asked for n climbs the sampling makes n, but at least two; the columns hold for each climb the length, the number of neighbours evaluated in it alone and the solution reached. Each climb has made exactly as many moves as its length says, all to better solutions; it ends at a solution without better neighbour, and the neighbours counted are for each move those up to the first better one and for the last solution all.", "quantifier": "for all problems, neighbourhoods, starting solutions, numbers of climbs", "why_tests_cant": "infinitely many inputs; a test samples a few", "anchors": ["mo/src/sampling/moAdaptiveWalkSampling.h, mo/src/sampling/moHillClimberSampling.h", "mo/src/explorer/moFirstImprHCexplorer.h", "mo/src/eval/moEvalCounter.h", "mo/src/continuator/moMinusOneCounterStat.h"]}
{"id": "C331", "title": "Statistics of neighbourhoods of minimised problems", "statement": "For a fitness to be minimised the statistic reports as min the greatest number and as max the least and counts as worse the neighbours with greater numbers, but the quartiles go with the numbers: max <= q1 <= q2 <= q3 <= min; everything else is as for a fitness to be maximised. For a solution without neighbours it shows the value of the last solution that had neighbours, and an uninitialised number if there was none.", "quantifier": "for all neighbourhoods, sorting functions, sequences of solutions", "why_tests_cant": "infinitely many inputs; a test samples a few", "anchors": ["mo/src/continuator/moNeighborhoodStat.h: operator()", "mo/src/continuator/moNeutralDegreeNeighborStat.h and the other statistics made from it"]}
{"id": "C332", "title": "Evaluators that throw", "statement": "The evaluator that rejects numbers that are not finite evaluates a population up to and including the first individual whose fitness is not finite and throws exactly when there is one; that individual keeps the fitness and counts as evaluated, so a caller who catches the exception and evaluates again gets one exception per such individual and then a population in which all of them are valid. The evaluator with a limit of user time evaluates exactly the invalid individuals reached before the limit, throws exactly when an invalid one is reached later, and leaves the later ones invalid. It is a counter of evaluations by type, but its count never moves, so a limit on the number of evaluations put on it never stops a run, whereas the same limit on the ordinary counter stops after that number.", "quantifier": "for all populations, evaluation functions, limits, clocks that do not go back, numbers of retries", "why_tests_cant": "infinitely many inputs; a test samples a few", "anchors": ["eo/src/eoEvalNanThrowException.h: operator()", "eo/src/eoEvalUserTimeThrowException.h: operator()", "eo/src/eoEvalFuncCounter.h, eo/src/eoEvalContinue.h"]}
{"id": "C333", "title": "Selectors that go round, take the best, or play", "statement": "The selector that does not use the fitness returns the individuals in order and begins again after the last: in k calls on n individuals each is chosen k / n times and the first k % n once more; on populations of changing sizes each call still returns an individual of its own population, unless that is empty, which is undefined behaviour. Selecting a number of individuals with it fills the destination with a window of the source, round and round if more are asked for, and the next selection goes on from there; with the selector of the best it is filled with copies of one best individual. The rate of a stochastic tournament below a half becomes 0.55 and above one becomes 1, so the tournament with rate one or more always returns the better of the two drawn.", "quantifier": "for all populations, numbers of calls, numbers asked for, previous contents of the destination, rates, draws", "why_tests_cant": "infinitely many inputs; a test samples a few", "anchors": ["eo/src/eoRandomSelect.h: eoNoSelect, eoBestSelect", "eo/src/eoTruncSelect.h: operator()", "eo/src/eoStochTournamentSelect.h: constructor"]}
{"id": "C334", "title": "Hill climbing with comparators that accept equals", "statement": "With the comparator of neighbours that accepts equals the steepest climber considers the last of the best neighbours instead of the first. With the comparator of solution and neighbour that accepts equals no iteration makes the solution worse, and if the climber ends by itself every neighbour of the result is strictly worse; from a solution of a set in which every solution has a neighbour at least as good, and which contains all those neighbours, it never ends, on finite spaces too. With the default comparators the climbers are those of C18 and C19.", "quantifier": "for all problems, neighbourhoods, starting solutions, combinations of comparators", "why_tests_cant": "infinitely many inputs; a test samples a few", "anchors": ["mo/src/comparator/moEqualNeighborComparator.h", "mo/src/comparator/moEqualSolNeighborComparator.h", "mo/src/explorer/moSimpleHCexplorer.h, mo/src/explorer/moFirstImprHCexplorer.h"]}
{"id": "C335", "title": "Sampling along a neutral walk", "statement": "The table of a neutral walk of at most n steps has between two and max(1, n) + 1 rows, all of the fitness of the first solution. From each row to the next a neighbour of equal fitness was taken, except that the last two rows show the same solution when it has none; fewer rows come about only in this way. The distance column is the distance from the first solution. In a row whose solution has neighbours the columns give the number of neighbours, the numbers of worse, equal and better ones, which add up to it, the mean, and quartiles which are values of neighbours between min and max; the column of equal ones is 0 exactly where the walk cannot go on.", "quantifier": "for all problems, neighbourhoods, starting solutions, numbers of steps", "why_tests_cant": "infinitely many inputs; a test samples a few", "anchors": ["mo/src/sampling/moNeutralWalkSampling.h: first constructor", "mo/src/explorer/moRandomNeutralWalkExplorer.h", "mo/src/continuator/moNeighborhoodStat.h", "mo/src/continuator/moDistanceStat.h"]}
{"id": "C336", "title": "Sampling of fitness clouds", "statement": "The cloud along a Metropolis-Hastings walk of n steps has max(1, n) + 1 points whatever is accepted, also when solutions have no neighbours; its points belong to the solutions of a walk each step of which is the move to the neighbour drawn, if the acceptance rule accepts it, and no move otherwise. The cloud of n random solutions has max(2, n) points, of the solution of the initialiser and those drawn after it. The first coordinate is the fitness of the solution, the second the best fitness among its neighbours, or that of the first neighbour looked at; a solution without neighbours gets 0, as if it had a neighbour of that fitness.", "quantifier": "for all problems, neighbourhoods, draws, numbers of steps and solutions", "why_tests_cant": "infinitely many inputs; a test samples a few", "anchors": ["mo/src/sampling/moMHBestFitnessCloudSampling.h, moMHRndFitnessCloudSampling.h, moRndBestFitnessCloudSampling.h, moRndRndFitnessCloudSampling.h", "mo/src/explorer/moMetropolisHastingExplorer.h", "mo/src/continuator/moNeighborBestStat.h, moNeighborFitnessStat.h"]}
{"id": "C337", "title": "Evaluation of flow-shop schedules", "statement": "For a permutation of the jobs the two objective values are the makespan and the total tardiness of the earliest schedule of that sequence: no schedule that takes the jobs in this order on every machine finishes any operation earlier. Delays of 2^31 or more count as none, negative due dates of the file add to the delay, and without machines or jobs, or on a sequence that is too short or names an unknown job, the evaluation is undefined.", "quantifier": "for all numbers of machines and jobs, processing times, due dates, sequences, feasible schedules", "why_tests_cant": "infinitely many inputs; a test samples a few", "anchors": ["moeo/tutorial/examples/flowshop/FlowShopEval.cpp: operator(), makespan, tardiness, completionTime"]}
{"id": "C338", "title": "Flow-shop crossover", "statement": "Crossing two permutations of the same jobs gives two permutations of them: each child keeps its parent up to the first point and from the second one on, the points being at least three apart, and takes the other jobs in the order of the other parent. It returns whether anything changed; then both lose their objective vectors, otherwise neither. With fewer than four jobs it never ends; with more it ends as soon as two points far enough apart are drawn.", "quantifier": "for all permutations, numbers of jobs, draws", "why_tests_cant": "infinitely many inputs; a test samples a few", "anchors": ["moeo/tutorial/examples/flowshop/FlowShopOpCrossoverQuad.cpp: operator(), generateOffspring", "moeo/src/core/moeoVector.h: value"]}
{"id": "C339", "title": "Reading flow-shop instances", "statement": "A file of the documented format gives the numbers it holds, whatever follows the last job. A line with fewer processing times than machines throws. A file with fewer jobs than announced throws if its last line is ended by a newline; otherwise it is accepted, and every missing job becomes a copy of the last one, due at that job's first processing time.", "quantifier": "for all numbers of jobs and machines, numbers in the file, texts between them", "why_tests_cant": "infinitely many inputs; a test samples a few", "anchors": ["moeo/tutorial/examples/flowshop/FlowShopBenchmarkParser.cpp: init"]}
{"id": "C340", "title": "Fitness of Mastermind guesses", "statement": "For a guess of the length of the solution the fitness is the number of right positions times the length plus the number of colours the whole guess shares with the solution at the other positions. It is at most the square of the length, and only the solution reaches that. It is never below the value of the true answer of the game and equals it if the solution has no colour twice; otherwise it can exceed it and even prefer the guess with the worse answer. A guess longer than the solution is undefined behaviour.", "quantifier": "for all guesses, solutions, lengths, numbers of colours", "why_tests_cant": "infinitely many inputs; a test samples a few", "anchors": ["eo/app/mastermind/mastermind.h: eoMastermind evaluator, operator()"]}
{"id": "C341", "title": "Mastermind chromosomes and the check of the solution", "statement": "Every chromosome of a run with c colours has the length of the solution and colours below c, and the operators do not fail on them. But which solutions the user can give is checked badly: the length only if the length asked for is not 8, the colours only if their number is not 8, and then a colour equal to c passes. With such a solution no chromosome ever reaches the fitness at which the run stops. The default solution given with another length or number of colours, and any solution with more than ten colours, is replaced by a random one.", "quantifier": "for all runs, numbers of colours, lengths, solutions, draws", "why_tests_cant": "infinitely many inputs; a test samples a few", "anchors": ["eo/app/mastermind/mastermind.h: eoInitChrom, mutation, crossover, init_eval", "eo/app/mastermind/mastermind.cpp: check of the parameters"]}
{"id": "C342", "title": "Operators of the parallel tutorial's assignment problem", "statement": "The initialiser makes a permutation, and any permutation can come out. The crossover replaces the first parent by a rearrangement of it that agrees with both parents wherever they agree, any such rearrangement can come out, and the second parent is left alone; true is returned always, also if nothing changed. The mutation exchanges two different positions, but on one item never ends and on none divides by zero.", "quantifier": "for all permutations, numbers of items, draws", "why_tests_cant": "infinitely many inputs; a test samples a few", "anchors": ["smp/tutorial/Lesson1/QAP.h: Problem, create", "smp/tutorial/Lesson1/QAPGA.h: ProblemXover, ProblemSwapMutation"]}
{"id": "C343", "title": "Copies and costs of the parallel tutorial's assignment problem", "statement": "A copy equals the original, evaluated or not, and so does the target of an assignment from an evaluated source. An assignment from an unevaluated source throws after the solution has been overwritten, so that a target which was evaluated is left with a valid fitness that is not that of its solution. The cost is the sum over all pairs of places of the products and does not depend on the names of the places.", "quantifier": "for all problems, matrices, solutions", "why_tests_cant": "infinitely many inputs; a test samples a few", "anchors": ["smp/tutorial/Lesson1/QAP.h: Problem copy constructor, operator=, evaluate"]}
{"id": "C344", "title": "What the training of a perceptron returns", "statement": "Training a net returns the mean squared error, on the training set, of the net it leaves behind, unless no step was accepted: then the net is unchanged and the largest number is returned. That holds for any arithmetic, floating point included. In exact arithmetic this error is the one the evaluation computes, and it is at most that of the net given plus the tolerance for every further epoch. Without epochs, or if no error is ever less than the previous one (all are NaN on an empty set), the net is unchanged.", "quantifier": "for all nets, training sets, numbers of epochs, targets, tolerances, coefficients, arithmetics", "why_tests_cant": "infinitely many inputs; a test samples a few", "anchors": ["eo/app/gprop/qp.h: net::train, weight_update, coeff_adapt", "eo/app/gprop/mse.h: net::error, mse::error"]}
{"id": "C345", "title": "Back-propagation computes the gradient", "statement": "One pass of the training over a set of samples accumulates the gradient: for every weight and bias of every neuron of every layer, what has been accumulated afterwards is minus half the derivative, by that number, of the sum of the squared differences between the outputs of the net and those wanted. The step tried next is the rate times the mean of this over the samples plus the momentum times the last step that was accepted.", "quantifier": "for all nets (numbers of layers, neurons), weights, sets of samples; exact arithmetic", "why_tests_cant": "infinitely many inputs; a test samples a few", "anchors": ["eo/app/gprop/mse.h: net::error, backward", "eo/app/gprop/qp.h: neuron, forward, init_delta, weight_update", "eo/app/gprop/mlp.h: sigmoid, neuron"]}
{"id": "C346", "title": "Populations evaluated by worker processes over a whole run", "statement": "A run in which any number of populations (also empty ones) is evaluated by at least one worker process, one after the other, and the evaluator is destroyed in the end, always comes to its end, whatever the order in which messages travel and workers compute: no execution is longer than a bound that depends on the sizes only, and none gets stuck. Then every population was evaluated, every individual exactly once, every worker has been sent the order to leave exactly once and nobody else has, no answer is left under way and, once the orders have arrived, all workers have left. That holds for the dynamic assignment with any packet size, and for the static one, whatever number of runs it was made for, if the loops are not dynamic.", "quantifier": "for all workers, populations, packet sizes, evaluations, interleavings", "why_tests_cant": "infinitely many inputs; a test samples a few", "anchors": ["eo/src/eoPopEvalFunc.h: eoParallelPopLoopEval", "eo/src/mpi/eoMpi.h: Job::master, Job::worker, MultiJob", "eo/src/mpi/eoTerminateJob.h: EmptyJob", "eo/src/mpi/eoMpiAssignmentAlgorithm.cpp: reinit"]}
{"id": "C347", "title": "Static assignment with the default options never ends", "statement": "The packets are made as many as there are workers only if the loops are not dynamic, but they are dynamic by default. With the static assignment and dynamic loops a run that evaluates a population of more individuals than workers times the packet size (1 by default) never comes to its end, in no execution: after a bounded number of steps nothing happens any more, that population has not been evaluated completely and no worker has been told to leave.", "quantifier": "for all workers, populations, packet sizes, interleavings", "why_tests_cant": "infinitely many inputs; a test samples a few", "anchors": ["eo/src/eoPopEvalFunc.h: eoParallelPopLoopEval::operator()", "eo/src/utils/eoParallel.cpp: eoParallel", "eo/src/mpi/eoMpiAssignmentAlgorithm.cpp: StaticAssignmentAlgorithm"]}
{"id": "C348", "title": "How training adapts its rate", "statement": "In exact arithmetic and from a rate of at least 1/10000 on, an accepted step of the training of a perceptron multiplies the rate by a number between 1/2 and 3/2, except that it never gets below 1/10000, and the rate grows if and only if the step goes along with the accumulated gradient; a refused step halves it with the same floor. So after k epochs the rate is between the k-th powers of 1/2 and 3/2 times the first. The ratio of momentum to rate is computed from the gradient summed over the samples, but the step from its mean: with n samples the momentum part of the next step is n/10 times as long as its gradient part, so that with more than ten samples the momentum outweighs the gradient.", "quantifier": "for all nets, sets of samples, rates, numbers of epochs; exact arithmetic", "why_tests_cant": "infinitely many inputs; a test samples a few", "anchors": ["eo/app/gprop/qp.h: net::train, coeff_adapt, weight_update"]}
{"id": "C349", "title": "Shapes of perceptrons", "statement": "A net made for given numbers of inputs, outputs and neurons of the hidden layers has one layer from each size to the next, as many neurons as the next size, each with as many weights as the size before. It tells these numbers back, except that asking for the inputs is undefined if the first layer is empty. Its length is the number of weights and biases, undefined if a layer is empty. For any input it has as many outputs as neurons in the last layer, all strictly between 0 and 1.", "quantifier": "for all sizes, weights, inputs; outputs in exact arithmetic", "why_tests_cant": "infinitely many inputs; a test samples a few", "anchors": ["eo/app/gprop/mlp.h: net::init, num_inputs, num_outputs, length, operator()"]}
{"id": "C350", "title": "Text of perceptrons and sample sets", "statement": "A net whose first layer is not empty comes back from its text with the same layers and every number as it is read from its own text (with the default precision: rounded to six digits), and what follows in the text is left alone. If a number cannot be read, as an infinity or NaN, loading fails an assertion. A set of samples of one size comes back in the same way; a text that announces samples without inputs and outputs is never loaded completely, since reading no number always succeeds.", "quantifier": "for all nets, sets of samples, ways of printing and reading numbers, texts that follow", "why_tests_cant": "infinitely many inputs; a test samples a few", "anchors": ["eo/app/gprop/mlp.h: net::save, net::load, set::save, set::load"]}
{"id": "C351", "title": "What the operators on perceptrons do", "statement": "Normalising gives a neuron that is not all zeros the norm 1 and divides its input by the old norm; for nets without hidden layers that changes no classification, with a hidden layer it can. Desaturating keeps sign and order of the numbers, brings them strictly between -5 and 5 and no further from zero. Perturbing ignores the magnitude and the probability given for a layer or a net; a number of at least 1/20 moves in proportion, any other, however negative, by at most a fortieth of the magnitude. The distance of two nets ignores layers that only one of them has. The crossover exchanges nothing: each net is changed without regard to the other. The mutation never worsens the error on the training set by more than 0.009.", "quantifier": "for all nets, sets of samples, draws; exact arithmetic", "why_tests_cant": "infinitely many inputs; a test samples a few", "anchors": ["eo/app/gprop/mlp.h: normalize, desaturate, perturb, euclidean_distance", "eo/app/gprop/gprop.h: eoChromMutation, eoChromXover"]}
{"id": "C352", "title": "Fitness of perceptrons", "statement": "A net is better than another if it answers more validation samples rightly or, with equally many, if its error is smaller; as long as errors are numbers all comparisons are those of a total preorder. If the error is NaN, the net is neither less than nor equal to a net with equally many right answers, not even to itself, and so each is greater than the other. A sample is answered rightly if every output is on the same side of 1/2 as the one wanted; a sample that wants exactly 1/2 never is.", "quantifier": "for all nets, sets of samples, errors; exact arithmetic", "why_tests_cant": "infinitely many inputs; a test samples a few", "anchors": ["eo/app/gprop/gprop.h: phenotype, correct, eoChromEvaluator"]}
{"id": "C353", "title": "Formulas of symbolic regression", "statement": "The text the symbolic regression application prints for a formula can be read back: two different formulas never have the same text, and evaluating the text as written, with a division by zero giving zero, gives exactly the value the application computes for the formula. At the end of a run the application prints the first of the formulas with the smallest error of all that were ever evaluated, provided one had an error below 1000, and otherwise says that none was found; formulas whose error is NaN are never reported.", "quantifier": "for all formulas over the nodes of the application, all sequences of evaluations, all number types", "why_tests_cant": "infinitely many inputs; a test samples a few", "anchors": ["eo/app/gpsymreg/node.h: Node::operator()", "eo/app/gpsymreg/fitness.h: init, _divides, RegFitness::operator(), RegFitness::RegFitness"]}
{"id": "C354", "title": "Points of symbolic regression", "statement": "The error of a formula is the sum of the squared differences to x^2(x^2-1)^2 at exactly twenty points: the loop from -1 to 1 in steps of 0.1 never reaches 1, since its counter has single precision and the step after 0.9000002 gets beyond 1; 0 is not among the points either. Formulas that agree at these points have the same error, whatever they are elsewhere. The second objective is the size of the formula over the maximum size; neither depends on earlier evaluations.", "quantifier": "for all formulas, all number types; the counter with the rounding of binary single and double precision", "why_tests_cant": "infinitely many inputs; a test samples a few", "anchors": ["eo/app/gpsymreg/fitness.h: RegFitness::operator(), sextic_polynomial"]}
{"id": "C355", "title": "Adapters of operators and foreign individuals", "statement": "Operators adapted from one kind to another tell the truth about changes if the original does. A crossover of two individuals used as one of the first only: the coin which is to remove a bias chooses nothing if the crossover treats both alike, the child is then always the one in the place of the first parent; whatever holds of both children in relation to both parents holds of the child. A mutation used as a crossover and then as one of the first only leaves the individual as it is when the coin falls so, but says it has changed. A foreign individual comes back from its text if the foreign object does and its fitness is one word; it is evaluated once; foreign operators leave the fitness alone, and fitnesses stay right if individuals are invalidated whenever an operator says that it changed them and the foreign functions tell the truth.", "quantifier": "for all operators, individuals, coins, random numbers, foreign types", "why_tests_cant": "infinitely many inputs; a test samples a few", "anchors": ["eo/src/eoOp.h: eoQuad2BinOp, eoMon2QuadOp1, eoMon2QuadOp2", "eo/src/other/eoExternalEO.h: printOn, readFrom", "eo/src/other/eoExternalOpFunctions.h: eoExternalInit, eoExternalEvalFunc, eoExternalMonOp, eoExternalBinOp, eoExternalQuadOp"]}
{"id": "C356", "title": "The estimation of distribution algorithm of EO", "statement": "With a distribution that overwrites the individuals it is given, the algorithm draws a population from the current distribution, evaluates it and updates the distribution with it, until the continuator says no after some generation; there is at least one. The final distribution is the first one updated with all these populations in order, each of the given size. One more population is drawn before the loop and never looked at, so that the individuals drawn are the population size times one more than the number of generations, and its only effect is on the random numbers.", "quantifier": "for all distributions, updates, evaluations, continuators, population sizes, runs", "why_tests_cant": "infinitely many inputs; a test samples a few", "anchors": ["eo/src/eoSimpleEDA.h: eoSimpleEDA::operator()", "eo/src/eoPop.h: eoPop(unsigned, eoInit&)", "eo/src/apply.h: apply"]}
{"id": "C357", "title": "What gnuplot is told by the monitor", "statement": "A line sent to gnuplot arrives as it is exactly if it has no percent sign; with one it is taken for a format, and arrives changed or is undefined. With two parameters or more and no percent sign in the names, the monitor tells gnuplot at the first call to plot every column of the file but the first over the first, each under the name of its parameter, and at each later call to plot again; the file has one line per call. With one parameter every call throws, always anew, after its line has gone into the file, and gnuplot is told nothing.", "quantifier": "for all names, values, numbers of parameters, sequences of calls; gnuplot available and running", "why_tests_cant": "infinitely many inputs; a test samples a few", "anchors": ["eo/src/utils/pipecom.cpp: PipeComSend", "eo/src/utils/eoGnuplot.cpp: gnuplotCommand, initGnuPlot", "eo/src/utils/eoGnuplot1DMonitor.cpp: operator(), FirstPlot"]}
{"id": "C358", "title": "Snapshots shown by gnuplot", "statement": "Every call of the gnuplot snapshot makes gnuplot plot, whether a file was written or not: the file written last, under the number of the call. So with a frequency above one the title names the generation of the data only in those calls that write a file: after call n+1 the file of call n - n mod frequency + 1 is shown. Started with a counter that is no multiple of the frequency, it plots a file with an empty name until the counter gets there.", "quantifier": "for all frequencies, starting counters, numbers of calls, values; counters below 2^32", "why_tests_cant": "infinitely many inputs; a test samples a few", "anchors": ["eo/src/utils/eoGnuplot1DSnapshot.cpp: operator()", "eo/src/utils/eoFileSnapshot.h: operator()"]}
{"id": "C359", "title": "A formula printed as C is compiled to the formula", "statement": "The C expression printed for a formula is read by a C compiler in one way only, and its value on any inputs is the value of the formula, with lambdas of any nesting expanded in place, as long as no inverse is taken of a lambda (nor of an argument that is one). The inverse of a lambda is printed so that the compiler rejects it: the slash of the division and the slash that opens the comment before the body start a comment to the end of the line.", "quantifier": "for all formulas, lambdas, inputs; exact numbers", "why_tests_cant": "infinitely many inputs; a test samples a few", "anchors": ["eo/contrib/mathsym/fun/FunDef.cpp: c_print", "eo/contrib/mathsym/eval/sym_compile.cpp: compile(Sym)"]}
{"id": "C360", "title": "Several formulas compiled into one function", "statement": "The function compiled for a list of formulas sets output i to the value of formula i, each output once and in order. It declares exactly one local variable for every different subformula, however often it occurs, and never the same name twice. Inverses of lambdas in the formulas are harmless here (not so in the bodies of lambdas).", "quantifier": "for all lists of formulas, lambdas, inputs on which the formulas have values; exact numbers", "why_tests_cant": "infinitely many inputs; a test samples a few", "anchors": ["eo/contrib/mathsym/eval/sym_compile.cpp: compile(const std::vector<Sym>&), find_entry, write_entry, make_var"]}
{"id": "C361", "title": "One compiled function for each formula", "statement": "Compiling a list of formulas into one function each gives function i exactly the text that formula i has by itself, although the texts of subformulas are kept in a table and used again for all formulas; so each function has the value of its formula wherever that text has.", "quantifier": "for all lists of formulas, lambdas, inputs", "why_tests_cant": "infinitely many inputs; a test samples a few", "anchors": ["eo/contrib/mathsym/eval/sym_compile.cpp: compile(const std::vector<Sym>&, std::vector<single_function>&), find_code, print_code"]}
{"id": "C362", "title": "Counted pointers", "statement": "A program that uses counted pointers by the rules (an object handed over once, a weak pointer locked only while a counted pointer to its object exists) has no undefined behaviour. An object exists as long as some variable points to it and no longer, and is deleted once. The reference count of a variable that points to an object is the number of variables that point to it. An assignment, also of null pointers or to itself, makes the variable point where the other does and changes no other. Making two counted pointers from one plain pointer deletes the object twice; locking a weak pointer whose object is gone uses a counter that is gone.", "quantifier": "for all programs of declarations, copies, assignments, ends of scope and weak pointers, of any length", "why_tests_cant": "infinitely many inputs; a test samples a few", "anchors": ["eo/contrib/mathsym/shared_ptr.h: shared_ptr, weak_ptr"]}
{"id": "C363", "title": "Formulas stored once and counted", "statement": "A program that declares, copies, assigns and destroys formulas behaves as if every variable held its own formula written out in full: what is read from a variable by token() and args() is what a program on plain values gives it, and no node is used after it is gone. Two variables compare equal just when their formulas are the same, however they were built. Stored are exactly the different formulas that occur in the variables, once each; nothing is stored when no variable holds a formula. refcount() is the number of variables with the formula and of its places as an argument in the different formulas alive, and the token statistics are the sums of these. Assigning to a variable an element of its own args() reads the element after it is gone, unless something else refers to the formula.", "quantifier": "for all programs of declarations, constructions, copies, assignments and ends of scope, of any length", "why_tests_cant": "infinitely many inputs; a test samples a few", "anchors": ["eo/contrib/mathsym/sym/Sym.h: Sym", "eo/contrib/mathsym/sym/Sym.cpp: Sym::Sym", "eo/contrib/mathsym/sym/SymImpl.cpp: SymArgs"]}
{"id": "C364", "title": "Size and depth of a formula", "statement": "size() is always the number of nodes of the formula written out, shared parts counted each time. depth() is the number of levels, provided that no formula without arguments was ever made with the constructor that takes a vector of arguments; with it, depth() may be one more: such a leaf has depth 2, and every equal leaf gets this depth too as long as the stored one is alive, so that the depth of a formula depends on what was built before.", "quantifier": "for all programs and formulas", "why_tests_cant": "infinitely many inputs; a test samples a few", "anchors": ["eo/contrib/mathsym/sym/Sym.cpp: get_size, get_depth, Sym::Sym"]}
{"id": "C365", "title": "The language of the symbolic regression program", "statement": "The table of functions holds exactly what the options ask for: each option adds its function with its number of arguments, --poly adds sums and products of two arguments and the negation, --all all functions with sums and products of two arguments; option names are all different. --ratio adds the inverse only, although its description says inverse, negation, sum and product: these come only with --poly. The program stops with an error just when no function with arguments was asked for (sum0 and prod0 alone do not count); otherwise, given data with at least one input, every tree can be generated and every function in it has a number of arguments that it takes.", "quantifier": "for all sets of options, numbers of inputs, random choices and depths", "why_tests_cant": "infinitely many inputs; a test samples a few", "anchors": ["eo/contrib/mathsym/symreg.cpp: setup_language, add_function, main", "eo/contrib/mathsym/fun/FunDef.cpp: get_defined_functions"]}
{"id": "C366", "title": "Size statistics of the symbolic regression program", "statement": "The statistics of sums and averages are those of the sizes of the individuals. The number of distinct subtrees reported is the number of different formulas that occur anywhere in the program: at least that of the population, and more as soon as something else, such as rejected offspring still kept, holds a formula that does not occur in the population. It is at most the sum of the sizes of all formulas held.", "quantifier": "for all populations and all programs on formulas", "why_tests_cant": "infinitely many inputs; a test samples a few", "anchors": ["eo/contrib/mathsym/symreg.cpp: AverageSizeStat, SumSizeStat, DagSizeStat"]}
{"id": "C367", "title": "The data file of the symbolic regression", "statement": "Lines starting with # are skipped, the first remaining line tells the number of columns, and a table of numbers whose rows have the same number of cells is read as written, the last cell of a row being its target; cells beyond that number are ignored. A row that lacks two cells or more stops the program with its number. A row that lacks just its last cell, or whose last cell is no number, is taken without complaint with the target zero. An empty first line asks for 4294967295 inputs per record. The last line may lack its newline. The least and greatest inputs enclose all data; the least of a column is in it as soon as one entry is at most 1e50, the greatest as soon as one is at least -1e50. A formula accepted by the check of bounds made of them has a value on every record.", "quantifier": "for all files made of comment lines and rows of numbers, all separators of white space, all ways of reading numbers, all formulas", "why_tests_cant": "infinitely many inputs; a test samples a few", "anchors": ["eo/contrib/mathsym/regression/Dataset.cpp: load_data, read_data, input_minima, input_maxima", "eo/contrib/mathsym/symreg.cpp: main"]}
{"id": "C368", "title": "Alternative comparisons of intervals", "statement": "For intervals that are not empty, each of the six operators of compare::certain answers whether all pairs of numbers of the two intervals are so related, of compare::possible whether some pair is, of compare::tribool yes if all are, no if none is and indeterminate otherwise; those of compare::lexicographic are the total order by lower, then upper ends, and those of compare::set inclusion and equality of sets. Except for compare::set an empty interval or NaN raises comparison_error; comparing with a number is comparing with the interval holding just this number, but always raises it for compare::set. The operations on two numbers enclose the exact result; dividing by zero gives the empty interval.", "quantifier": "for all intervals, with infinite ends or not, all numbers and all sound roundings", "why_tests_cant": "infinitely many inputs; a test samples a few", "anchors": ["eo/contrib/boost/numeric/interval/compare/certain.hpp", "eo/contrib/boost/numeric/interval/compare/possible.hpp", "eo/contrib/boost/numeric/interval/compare/tribool.hpp", "eo/contrib/boost/numeric/interval/compare/lexicographic.hpp", "eo/contrib/boost/numeric/interval/compare/set.hpp", "eo/contrib/boost/numeric/interval/arith3.hpp"]}
{"id": "C369", "title": "Fitness-distance and neutral degree samplings", "statement": "Asked for n random solutions, both samplings record n rows, but at least two, in the order the solutions were drawn, the first column being the fitness. The second column of the fitness-distance sampling is the distance of the solution to the reference, the solution being the first argument; that of the neutral degree sampling is the number of neighbours whose fitness equals that of the solution, for maximised and minimised fitness. A solution without neighbours repeats the degree of the row before.", "quantifier": "for all numbers of solutions, initialisers, evaluations, distances, references and neighbourhoods", "why_tests_cant": "infinitely many inputs; a test samples a few", "anchors": ["mo/src/sampling/moFDCsampling.h: moFDCsampling", "mo/src/sampling/moNeutralDegreeSampling.h: moNeutralDegreeSampling", "mo/src/continuator/moNeutralDegreeNeighborStat.h: operator()", "mo/src/continuator/moDistanceStat.h: operator()"]}
{"id": "C370", "title": "Islands made by the wrapper share their criteria", "statement": "The wrapper for homogeneous island models gives the same continuator and migration policy to all islands. With a limit of n generations, k islands therefore make n + k - 1 generations together (k when the limit is 0), not n each, whatever the interleaving; each makes at least one, and every such way to share the generations out can happen. If the continuator has counted c generations in an earlier run, n - c takes the place of n. The run ends as soon as every island gets its turns. A periodic migration criterion sends as many groups as the generations of all islands divided by the period, and may let a single island do all the emigration.", "quantifier": "for all numbers of islands, limits, periods and interleavings of the islands", "why_tests_cant": "infinitely many inputs; a test samples a few", "anchors": ["smp/src/islandModelWrapper.h: IslandModelWrapper", "smp/src/contWrapper.cpp: ContWrapper", "smp/src/island.cpp: check", "eo/src/eoGenContinue.h: operator()", "eo/src/eoPeriodicContinue.h: operator()", "eo/src/eoEasyEA.h: operator()"]}
{"id": "C371", "title": "Selection probabilities of tournaments are exact", "statement": "With every draw equally likely, a deterministic tournament of size T in a population of n individuals, c of which have a fitness of at most v, returns an individual of fitness at most v for exactly c^T of the n^T possible draws; when all fitnesses differ, the individual better than exactly m others wins for exactly (m+1)^T - m^T draws. A stochastic tournament which keeps the better one returns a fitness of at most v for c^2 of the n^2 draws, one which keeps the worse one for n^2-(n-c)^2; the inverse tournament the other way round.", "quantifier": "all populations, fitness functions (with ties), tournament sizes of at least one and thresholds", "why_tests_cant": "infinitely many inputs; a test samples a few", "anchors": ["eo/src/utils/selectors.h: deterministic_tournament, stochastic_tournament, inverse_stochastic_tournament", "eo/src/eoDetTournamentSelect.h", "eo/src/eoStochTournamentSelect.h"]}
{"id": "C372", "title": "Random exploration without replacement gives every order equally often", "statement": "Whatever order earlier explorations left behind, each of the n! orders of the neighbours is produced by exactly one of the n! possible sequences of draws, so that with equally likely draws all orders are equally likely.", "quantifier": "all sizes, all previous states of the neighbourhood, all orders", "why_tests_cant": "infinitely many inputs; a test samples a few", "anchors": ["mo/src/neighborhood/moRndWithoutReplNeighborhood.h: init, next, cont"]}
{"id": "C373", "title": "Which hand-written shuffles are uniform", "statement": "The shuffle of the positions chosen by stochastic universal selection and the shuffle of the QAP tutorial (initialisation and crossover) give every order of different entries for exactly one of the possible sequences of draws. The shuffle inside eoDetSingleBitFlip draws among all positions at every step: from three bits on its orders are not equally frequent, and asked to flip one bit of three it flips the first, second and third for 9, 10 and 8 of the 27 equally likely draws.", "quantifier": "all lengths, all lists of different entries and all orders; for the last claim all strings of three bits", "why_tests_cant": "infinitely many inputs; a test samples a few", "anchors": ["eo/src/eoStochasticUniversalSelect.h: setup", "eo/src/ga/eoBitOp.h: eoDetSingleBitFlip", "smp/tutorial/Lesson1/QAP.h: create", "smp/tutorial/Lesson1/QAPGA.h: ProblemXover"]}
{"id": "C374", "title": "Choices made by drawing again are uniform", "statement": "Two different positions chosen by drawing the second again while it equals the first: for every number of draws used, each ordered pair is given by exactly one sequence of draws. Points chosen by N-point and gene crossover: for every number of draws, any two sets of equally many points are chosen by equally many sequences of draws. eoDetBitFlip draws positions with replacement, and any two strings at the same Hamming distance from the parent are produced by equally many sequences of draws.", "quantifier": "all lengths, numbers of draws, pairs, sets of points, strings", "why_tests_cant": "infinitely many inputs; a test samples a few", "anchors": ["eo/src/eoSwapMutation.h: operator()", "eo/src/eoShiftMutation.h: operator()", "eo/src/eoTwoOptMutation.h: operator()", "eo/src/ga/eoBitOp.h: eoNPtsBitXover, eoBitGxOver, eoBitInversion, eoDetBitFlip"]}
{"id": "C375", "title": "Annealing at a fixed temperature and Metropolis-Hastings have the right stationary distributions", "statement": "Take a finite set of solutions whose moves are symmetric (as many lead from x to y as from y to x), draw the move uniformly among all moves and the number uniformly in [0,1). One iteration of simulated annealing at temperature T > 0 then leaves the Boltzmann distribution, proportional to exp(f/T) when maximising and to exp(-f/T) when minimising, unchanged; one iteration of the Metropolis-Hastings walk on positive fitness values leaves the distribution proportional to the fitness unchanged. Both walks are reversible with respect to these weights.", "quantifier": "all finite sets of solutions and moves, fitness functions, positive temperatures and cooling schedules", "why_tests_cant": "infinitely many inputs; a test samples a few", "anchors": ["mo/src/explorer/moSAexplorer.h: operator(), accept, move", "mo/src/explorer/moMetropolisHastingExplorer.h: operator(), accept, move", "mo/src/algo/moLocalSearch.h: operator()"]}
{"id": "C376", "title": "An elitist algorithm with bit-flip mutation finds an optimum with probability tending to one", "statement": "Run an evolutionary algorithm on strings of n bits whose replacement keeps the size of the population, invents nobody and keeps somebody at least as good as every parent and every offspring (as the (mu+lambda) replacement does), and in which every generation has one offspring made by flipping each bit of some string of n bits with probability p, whatever the choice of this string, the other offspring and the starting population. The probability that an optimum is not in the population after T generations is at most (1 - min(p,1-p)^n)^T; for 0 < p < 1 it tends to zero.", "quantifier": "all n, objective functions into a linear order, selection and variation strategies, elitist replacements, starting populations, numbers of generations", "why_tests_cant": "infinitely many inputs; a test samples a few", "anchors": ["eo/src/eoEasyEA.h: operator()", "eo/src/ga/eoBitOp.h: eoBitMutation", "eo/src/eoMergeReduce.h: eoPlusReplacement", "eo/src/eoReplacement.h: eoWeakElitistReplacement"]}
{"id": "C377", "title": "A random walk goes from each solution to the first neighbour it is given", "statement": "A sampling along a random walk of nbStep steps ends, and records every statistic at the starting solution and at each solution of the walk that goes, at every step, to the first neighbour given by the neighbourhood. It makes max(1, nbStep) iterations unless it reaches a solution without neighbours before: then the iteration that finds none leaves the solution as it is, records it again, and is the last.", "quantifier": "all neighbourhoods (random or not), moves, starting solutions, statistics, numbers of steps", "why_tests_cant": "infinitely many inputs; a test samples a few", "anchors": ["mo/src/explorer/moRandomWalkExplorer.h: operator(), accept, isContinue", "mo/src/algo/moRandomWalk.h", "mo/src/sampling/moSampling.h: operator()", "mo/src/continuator/moIterContinuator.h"]}
{"id": "C378", "title": "The neighbourhoods of permutations and bit strings connect the search space", "statement": "From every arrangement of n elements every other one is reached by at most n-1 moves of the swap neighbourhood, by at most n-1 moves of the indexed swap neighbourhood (as long as its keys do not overflow), by at most n-1 inversions (2-opt) and by at most n-1 shifts with keys of the shift neighbourhood. From every string of n bits every other one is reached by flipping the bits in which they differ, and by no shorter sequence of flips.", "quantifier": "all n, arrangements of elements of any kind, strings of bits", "why_tests_cant": "infinitely many inputs; a test samples a few", "anchors": ["mo/src/problems/permutation/moSwapNeighbor.h: move", "mo/src/problems/permutation/moIndexedSwapNeighbor.h: move, index", "mo/src/problems/permutation/moTwoOptExNeighbor.h: move", "mo/src/problems/permutation/moShiftNeighbor.h: move, index", "mo/src/problems/bitString/moBitNeighbor.h: move"]}
{"id": "C379", "title": "Exact laws of bit-flip mutation and uniform crossover", "statement": "The bit-flip mutation with probability p for each bit turns a string into a given string of the same length with probability p^d (1-p)^(n-d), d being the number of bits in which they differ. The uniform crossover of two strings of the same length throws one coin for each position in which they differ; its first child is a given string with the product over the positions of 1 where both parents have the gene of the child, p where only the second has it, 1-p where only the first has it, and 0 where none has it.", "quantifier": "all strings, probabilities and target strings", "why_tests_cant": "infinitely many inputs; a test samples a few", "anchors": ["eo/src/ga/eoBitOp.h: eoBitMutation, eoUBitXover"]}
{"id": "C380", "title": "When the moves connect the solutions, the stationary distributions of annealing and Metropolis-Hastings are the only ones", "statement": "Under the assumptions of C375, if moreover the moves lead from every solution to every other, any vector of weights with sum one that one iteration leaves unchanged is the Boltzmann distribution at that temperature (simulated annealing), respectively the distribution proportional to the fitness (Metropolis-Hastings walk). Without connected moves this is false.", "quantifier": "all finite sets of solutions and symmetric, connected moves, fitness functions, positive temperatures", "why_tests_cant": "infinitely many inputs; a test samples a few", "anchors": ["mo/src/explorer/moSAexplorer.h: operator(), accept, move", "mo/src/explorer/moMetropolisHastingExplorer.h: operator(), accept, move", "mo/src/algo/moLocalSearch.h: operator()"]}
{"id": "C381", "title": "A statistic that reads another one is late unless it was added after it", "statement": "In a checkpoint with interval 1, a statistic on the neighbourhood shows the values for the solution of the last call. The statistics that read it (minimum, maximum, quartiles, median, mean, deviation, sizes, copies) show the value for that solution if they were added to the checkpoint after it; added before it, they always show the value for the solution of the previous call, and at the initialisation whatever the other held when it was made. With interval 2 and the two statistics in the right order, both show the value for the first solution for ever, because the counter counts statistics and not calls.", "quantifier": "all lists of statistics, values computed, sequences of solutions", "why_tests_cant": "infinitely many inputs; a test samples a few", "anchors": ["mo/src/continuator/moCheckpoint.h: init, operator()", "mo/src/continuator/moMinNeighborStat.h", "mo/src/continuator/moQ1NeighborStat.h", "mo/src/continuator/moSecondMomentNeighborStat.h", "mo/src/continuator/moStatFromStat.h", "mo/src/continuator/moNeighborhoodStat.h"]}
{"id": "C382", "title": "A local search with a target fitness", "statement": "A local search whose continuator is a target fitness makes at least one iteration, all its iterations but the last are below the target, and it was stopped by the continuator if and only if the last one reaches it. A climber (best or first improvement) that ends has reached the target or has found a solution that no neighbour improves. The starting solution is not tested: if it already reaches the target a random walk still moves, possibly to a worse solution.", "quantifier": "all explorers, evaluations, targets, starting solutions, lengths of run", "why_tests_cant": "infinitely many inputs; a test samples a few", "anchors": ["mo/src/continuator/moFitContinuator.h: operator()", "mo/src/algo/moLocalSearch.h: operator()", "mo/src/explorer/moSimpleHCexplorer.h", "mo/src/explorer/moFirstImprHCexplorer.h"]}
{"id": "C383", "title": "Annealing at a fixed temperature and Metropolis-Hastings walks converge in law", "statement": "Let the moves be symmetric and connect the solutions, and let the fitness not be constant. Whatever the starting solution, the probability that simulated annealing at the fixed temperature T is in the solution y after t iterations, the moves and the numbers in [0,1) being drawn uniformly and independently, tends with t to exp(f(y)/T) divided by the sum of these values (exp(-f(y)/T) when minimising); for the Metropolis-Hastings walk on positive values it tends to f(y) divided by the sum of all fitness values. With a constant fitness this may be false: on two solutions with the move between them the walk alternates for ever.", "quantifier": "all finite search spaces, symmetric connected moves, fitness functions, positive temperatures, starting solutions; limit over all lengths of run", "why_tests_cant": "infinitely many inputs; a test samples a few", "anchors": ["mo/src/explorer/moSAexplorer.h: operator(), accept", "mo/src/explorer/moMetropolisHastingExplorer.h", "mo/src/coolingSchedule/moSimpleCoolingSchedule.h", "mo/src/algo/moLocalSearch.h"]}
{"id": "C384", "title": "moeoSEEA and moeoASEEA with bit-flip mutation fill the archive with exactly the Pareto front, almost surely", "statement": "Let every generation contain one offspring made by the standard bit-flip mutation (rate p, 0 < p < 1) of some string of n bits, chosen in any way from the sources offered, besides any other offspring of n bits. Then the probability that a run of T generations on an empty unbounded archive does not leave in the archive exactly the vectors of the Pareto front of all strings of n bits is at most F (1 - min(p,1-p)^n)^T, where F is the number of vectors of the front; it tends to zero. This holds for moeoSEEA built from a variation operator and for moeoASEEA with a positive number of parents.", "quantifier": "all objective functions and strict partial orders of vectors, non-empty initial populations, other offspring, choices of the parent, rates, numbers of generations", "why_tests_cant": "infinitely many inputs; a test samples a few", "anchors": ["moeo/src/algo/moeoSEEA.h: moeoSEEA::operator()", "moeo/src/algo/moeoASEEA.h: moeoASEEA::operator()", "moeo/src/archive/moeoUnboundedArchive.h", "eo/src/ga/eoBitOp.h: eoBitMutation::operator()"]}
{"id": "C385", "title": "Annealing and Metropolis-Hastings walks on permutations converge in law with the swap, shift and inversion moves", "statement": "Take the permutations of n >= 2 elements with the indexed swap moves (n small enough that 1+4n(n-1) < 2^32), the shift moves, or the inversions of a part, the move drawn uniformly. For every fitness function that is not constant and every start, simulated annealing at a fixed temperature T converges in law to the distribution proportional to exp(f/T) (exp(-f/T) when minimising), and the Metropolis-Hastings walk on positive values to the one proportional to f.", "quantifier": "all n, fitness functions, starts, temperatures", "why_tests_cant": "infinitely many inputs; a test samples a few", "anchors": ["mo/src/explorer/moSAexplorer.h", "mo/src/explorer/moMetropolisHastingExplorer.h", "mo/src/problems/permutation/moIndexedSwapNeighbor.h", "mo/src/problems/permutation/moShiftNeighbor.h", "mo/src/problems/permutation/moTwoOptExNeighbor.h"]}
{"id": "C386", "title": "With mutations that flip a bounded number of bits an elitist algorithm can be stuck for ever", "statement": "The limit of C376 needs a mutation that can flip any set of bits. For k < n let the offspring differ from an individual of the population in at most k bits, as those of eoOneBitFlip, eoDetBitFlip(k) and eoDetSingleBitFlip(k) do, and let the replacement be (mu+lambda). On the fitness that counts the zeros but is highest on the string of ones, a run of eoEasyEA started on strings of zeros ends, if it ends, with strings of zeros only, whatever was drawn and however long it ran.", "quantifier": "all n, k < n, population sizes, offspring, draws, stopping criteria, numbers of generations", "why_tests_cant": "infinitely many inputs; a test samples a few", "anchors": ["eo/src/eoEasyEA.h: eoEasyEA::operator()", "eo/src/ga/eoBitOp.h: eoOneBitFlip, eoDetBitFlip, eoDetSingleBitFlip", "eo/src/eoMergeReduce.h: eoPlusReplacement"]}
{"id": "C387", "title": "The hill climbers solve OneMax in as many improvements as there are zeros, and stop at once on a royal road", "statement": "Run moSimpleHC, moFirstImprHC or moRandomBestHC with the one-bit neighbourhood in any order and moOneMaxIncrEval, from a bit string whose first evaluation is the full one. The search ends with all bits one and the fitness n after exactly as many iterations as the start has zeros plus one. On a royal road of blocks of k >= 2 bits with moRoyalRoadIncrEval, the same searches started on the string of zeros stop after one iteration where they started, with fitness 0 while the string of ones has fitness m.", "quantifier": "all sizes, starts, orders of the neighbourhood, draws, block sizes k >= 2 and numbers of blocks m", "why_tests_cant": "infinitely many inputs; a test samples a few", "anchors": ["mo/src/algo/moSimpleHC.h: moSimpleHC", "mo/src/algo/moFirstImprHC.h: moFirstImprHC", "mo/src/algo/moRandomBestHC.h: moRandomBestHC", "mo/src/problems/eval/moOneMaxIncrEval.h: moOneMaxIncrEval", "mo/src/problems/eval/moRoyalRoadIncrEval.h: moRoyalRoadIncrEval"]}
{"id": "C388", "title": "The hill climbers walk the whole long path", "statement": "Run moSimpleHC, moFirstImprHC or moRandomBestHC on the long k-path problem of dimension 1 + m k with all one-bit flips as neighbours, in any order, and k >= 2. Started on the i-th point of the path the search ends at the end of the path after exactly (k+1) 2^m - k - i improvements and one iteration more; from the string of zeros that is the whole path, exponential in the dimension for fixed k. From any other start of the dimension, and for any k >= 1, the search ends at the end of the path too, with the highest fitness.", "quantifier": "all k, m, starts, orders of the neighbourhood and draws", "why_tests_cant": "infinitely many inputs; a test samples a few", "anchors": ["problems/eval/longKPathEval.h: LongKPathEval", "mo/src/algo/moSimpleHC.h: moSimpleHC", "mo/src/algo/moFirstImprHC.h: moFirstImprHC", "mo/src/algo/moRandomBestHC.h: moRandomBestHC", "mo/src/problems/bitString/moBitNeighbor.h: moBitNeighbor"]}
{"id": "C389", "title": "A hill climber on random MAX-k-SAT ends with at least k of k+1 clauses satisfied", "statement": "Build a MaxSATeval of n variables and m clauses of k literals at random and run moSimpleHC, moFirstImprHC or moRandomBestHC over all one-bit flips in any order with an exact evaluation of the neighbours. Whatever was drawn and wherever it starts, the search stops after at most m+1 iterations, and the number of satisfied clauses it returns is at least k m/(k+1). moMaxSATincrEval is such an exact evaluation when the first clause has no negated variable (C05).", "quantifier": "all n, k, m, instances drawn, starts, orders of the neighbourhood and draws", "why_tests_cant": "infinitely many inputs; a test samples a few", "anchors": ["problems/eval/maxSATeval.h: MaxSATeval", "mo/src/problems/eval/moMaxSATincrEval.h: moMaxSATincrEval", "mo/src/algo/moSimpleHC.h: moSimpleHC", "mo/src/algo/moFirstImprHC.h: moFirstImprHC", "mo/src/algo/moRandomBestHC.h: moRandomBestHC"]}
{"id": "C390", "title": "What only compares fitnesses does not change under an increasing transformation of the fitness", "statement": "Replace the fitness by an increasing function of it, for instance another unit or scale, in the full and in the incremental evaluation. Then moSimpleHC, moFirstImprHC, moRandomBestHC, moNeutralHC and moTS made with a size visit the same solutions in as many iterations and end with the transformed fitness; deterministic and stochastic tournaments, elite sequential selection, best and worst individual, linear, tournament and EP truncation, weak elitism, the steady-state, MGG, G3 and reduce-merge-reduce replacements choose the same individuals; and a sort by one fitness is a sort by the other. Metropolis-Hastings acceptance and proportional selection do depend on the scale.", "quantifier": "all increasing functions between ordered fitness types, neighbourhoods, draws, stopping criteria that do not look at the fitness, populations", "why_tests_cant": "infinitely many inputs; a test samples a few", "anchors": ["mo/src/algo/moSimpleHC.h: moSimpleHC", "mo/src/algo/moFirstImprHC.h: moFirstImprHC", "mo/src/algo/moRandomBestHC.h: moRandomBestHC", "mo/src/algo/moNeutralHC.h: moNeutralHC", "mo/src/algo/moTS.h: moTS", "eo/src/utils/selectors.h: deterministic_tournament, stochastic_tournament", "eo/src/eoReduce.h: eoLinearTruncate, eoDetTournamentTruncate, eoStochTournamentTruncate, eoEPReduce", "eo/src/eoMGGReplacement.h: eoMGGReplacement", "eo/src/eoG3Replacement.h: eoG3Replacement", "eo/src/eoReduceMergeReduce.h: eoReduceMergeReduce", "eo/src/eoProportionalSelect.h: eoProportionalSelect", "mo/src/explorer/moMetropolisHastingExplorer.h: moMetropolisHastingExplorer"]}
{"id": "C391", "title": "What only compares by dominance does not change when objectives are regraded", "statement": "Replace each objective by an increasing function of it, or by a decreasing one while exchanging minimisation and maximisation, such that values are told apart (by more than the tolerance) after it as before; without tolerance, or for shifts and changes of sign, that is always so. Then Pareto dominance, weak dominance and equality of objective vectors are the same; the unbounded archive and the archive bounded by improvement hold the same individuals and give the same answers; the ranks of the non-dominated sorting and the dominance counts and ranks are the same; and the dominance-based local searches (PLS, every explorer and selection) make the same run. With the tolerance a mere change of unit can make dominated vectors equal; the lexicographic order ignores the direction; and the epsilon comparator depends on the origin.", "quantifier": "all numbers of objectives, traits, regradings, archives, populations, neighbourhoods, enumeration orders, stopping criteria that do not look at the objective vectors", "why_tests_cant": "infinitely many inputs; a test samples a few", "anchors": ["moeo/src/comparator/moeoParetoObjectiveVectorComparator.h: moeoParetoObjectiveVectorComparator", "moeo/src/comparator/moeoWeakObjectiveVectorComparator.h: moeoWeakObjectiveVectorComparator", "moeo/src/core/moeoRealObjectiveVector.h: operator==, operator<", "moeo/src/archive/moeoArchive.h: moeoArchive", "moeo/src/archive/moeoImprOnlyBoundedArchive.h: moeoImprOnlyBoundedArchive", "moeo/src/fitness/moeoDominanceDepthFitnessAssignment.h: moeoDominanceDepthFitnessAssignment", "moeo/src/utils/moeoDominanceMatrix.h: moeoDominanceMatrix", "moeo/src/algo/moeoUnifiedDominanceBasedLS.h: moeoUnifiedDominanceBasedLS", "moeo/src/comparator/moeoEpsilonObjectiveVectorComparator.h: moeoEpsilonObjectiveVectorComparator"]}
{"id": "C392", "title": "Runs of evolutionary algorithms that only compare do not change under an increasing transformation of the fitness", "statement": "Take an eoEasyEA whose breeding is eoSelectTransform with deterministic or stochastic tournaments and eoSGATransform on operators that look at genomes, whose replacement is generational, plus, comma, replace-worst, deterministic or stochastic tournament, with or without weak elitism, and whose continuator counts generations or evaluations, waits for improvement or for a target. Replace the objective function by an increasing function of it (and the target by its image). With the same draws the run fails alike, or goes through as many generations and evaluations with the same genomes in the same places and ends with the transformed fitnesses, whatever the default value of the fitness type.", "quantifier": "all objective functions, increasing functions between ordered fitness types, operators on genomes, draws, populations (evaluated or not), numbers of generations; for plus and comma all sorts that break ties alike", "why_tests_cant": "infinitely many inputs; a test samples a few", "anchors": ["eo/src/eoEasyEA.h: eoEasyEA::operator()", "eo/src/eoBreed.h: eoSelectTransform", "eo/src/eoSGATransform.h: eoSGATransform", "eo/src/utils/selectors.h: deterministic_tournament, stochastic_tournament", "eo/src/eoReplacement.h: eoGenerationalReplacement, eoWeakElitistReplacement", "eo/src/eoMergeReduce.h: eoPlusReplacement, eoCommaReplacement", "eo/src/eoReduceMerge.h: eoSSGAWorseReplacement, eoSSGADetTournamentReplacement, eoSSGAStochTournamentReplacement", "eo/src/eoSteadyFitContinue.h: eoSteadyFitContinue", "eo/src/eoFitContinue.h: eoFitContinue", "eo/src/EO.h: invalidate"]}
{"id": "C393", "title": "Bit-string operators and genetic algorithms treat zeros and ones alike", "statement": "Complement the bits at any set of positions in all strings. With the same draws, eoOneBitFlip, eoDetBitFlip, eoDetSingleBitFlip, eoBitMutation, the standard, uniform, conditional, shifted, normal and fast bit mutations, and the one-point, uniform, n-point and gene crossovers give the complemented result, the same answer, or fail alike. Therefore an eoEasyEA with tournaments, one-point or uniform crossover, eoBitMutation or eoDetSingleBitFlip makes on x -> f(x xor m), from the complemented population, the complemented run with the same fitnesses, generations and evaluations: no function is favoured for its optimum being at a particular string. eoBitInversion and eoBitNext do not treat zeros and ones alike.", "quantifier": "all masks, strings, lengths, draws, objective functions, populations, rates, replacements that compare fitness, numbers of generations", "why_tests_cant": "infinitely many inputs; a test samples a few", "anchors": ["eo/src/ga/eoBitOp.h: eoOneBitFlip, eoDetBitFlip, eoDetSingleBitFlip, eoBitMutation, eoBitInversion, eoBitNext, eo1PtBitXover, eoUBitXover, eoNPtsBitXover, eoBitGxOver", "eo/src/ga/eoStandardBitMutation.h: eoStandardBitMutation, eoUniformBitMutation, eoConditionalBitMutation, eoShiftedBitMutation, eoNormalBitMutation, eoFastBitMutation", "eo/src/eoEasyEA.h: eoEasyEA::operator()", "eo/src/eoSGATransform.h: eoSGATransform"]}
{"id": "C394", "title": "Particle swarms are the same in all coordinates, unless bounded or rounded", "statement": "If a problem is written in other coordinates (and its fitness transformed increasingly), with velocity, flight and evaluation accordingly, both particle swarm algorithms make, with the same draws, the same run in the new coordinates, for every topology; initial particles, neighbourhood bests, best element and global best likewise. Without bounds, the standard and constricted velocities allow every linear map, for instance rotations, and every translation, because the numbers are drawn once per particle; with bounds on velocities and positions, scaling, mirroring, shifting and exchanging variables together with their bounds. A bound excludes a turn by an eighth, whatever bounds are chosen. Integer velocities allow mirroring, shifting and exchanging, but not doubling.", "quantifier": "all problems, maps, swarms, topologies, weights, draws, bounds, increasing transformations, numbers of generations", "why_tests_cant": "infinitely many inputs; a test samples a few", "anchors": ["eo/src/eoEasyPSO.h: eoEasyPSO::operator()", "eo/src/eoSyncEasyPSO.h: eoSyncEasyPSO::operator()", "eo/src/eoStandardVelocity.h: eoStandardVelocity::operator()", "eo/src/eoStandardFlight.h: eoStandardFlight::operator()", "eo/src/eoIntegerVelocity.h: eoIntegerVelocity::operator()", "eo/src/eoConstrictedVelocity.h: eoConstrictedVelocity::operator()"]}
{"id": "C395", "title": "Permutation operators and algorithms do not depend on the numbering of the elements", "statement": "Renaming the elements (cities, jobs) of a permutation before eoSwapMutation, eoShiftMutation, eoTwoOptMutation or a swap, shift or two-opt move is renaming them afterwards, by whatever function. Renumbering 0, ..., n-1 in both parents of eoOrderXover and eoPartiallyMappedXover renumbers the children, with the same answer and the same failures, the draws being the same; numbers from 1 to n make the latter leave its tables. Therefore an eoEasyEA with tournaments and these operators makes, on the problem with renumbered elements from the renumbered population, the renumbered run with the same fitnesses, generations and evaluations.", "quantifier": "all permutations, lengths, renumberings, draws, objective functions, populations, rates, replacements that compare fitness, numbers of generations", "why_tests_cant": "infinitely many inputs; a test samples a few", "anchors": ["eo/src/eoOrderXover.h: eoOrderXover", "eo/src/eoPartiallyMappedXover.h: eoPartiallyMappedXover", "eo/src/eoSwapMutation.h: eoSwapMutation", "eo/src/eoShiftMutation.h: eoShiftMutation", "eo/src/eoTwoOptMutation.h: eoTwoOptMutation", "mo/src/problems/permutation/moShiftNeighbor.h: moShiftNeighbor::move", "mo/src/problems/permutation/moSwapNeighbor.h: moSwapNeighbor::move", "eo/src/eoEasyEA.h: eoEasyEA::operator()"]}
{"id": "C396", "title": "Local searches on problems that are written differently", "statement": "Let a problem be written differently: every solution x as i(x), where i need not be injective, with the same fitness, the same moves in the same order, and moves that applied to i(x) give i of the neighbour. Then, with the same draws, the hill climbers (simple, first improvement, random best, neutral), the random walk, the neutral walk, simulated annealing with any comparator and cooling schedule, and tabu search with memories that correspond pass from i(x) through the rewritten solutions with the same fitnesses, in as many iterations, and return the rewritten result. This applies to bit strings with any bits complemented and flip neighbours, and to permutations with renamed elements and swap, shift or two-opt neighbours, with whatever moves tried in whatever order.", "quantifier": "all solution types, maps, objective functions, neighbour orders, draws, schedules, continuators, initial solutions, numbers of iterations", "why_tests_cant": "infinitely many inputs; a test samples a few", "anchors": ["mo/src/algo/moLocalSearch.h: moLocalSearch::operator()", "mo/src/explorer/moSimpleHCexplorer.h: moSimpleHCexplorer", "mo/src/explorer/moFirstImprHCexplorer.h: moFirstImprHCexplorer", "mo/src/explorer/moSAexplorer.h: moSAexplorer", "mo/src/explorer/moTSexplorer.h: moTSexplorer", "mo/src/explorer/moRandomWalkExplorer.h: moRandomWalkExplorer", "mo/src/problems/bitString/moBitNeighbor.h: moBitNeighbor::move", "mo/src/problems/permutation/moTwoOptExNeighbor.h: moTwoOptExNeighbor::move"]}
{"id": "C397", "title": "Operators on real vectors in other units", "statement": "Write a problem on real vectors in other units: every variable is multiplied by a positive factor of its own and shifted by a constant of its own, and its bounds and mutation range are converted likewise. With the same random draws, eoUniformMutation with bounds, eoNormalVecMutation, eoSegmentCrossover, eoHypercubeCrossover and eoRealUXover return the converted results of the same calls in the old units, give the same answer and fail in the same cases. eoUniformMutation without bounds does so for a common factor. The range that eoUniformMutation computes for a variable with two bounds is in the units of the variable. eoDoubleExchange, eoDoubleIntermediate and simulated binary crossover before its bounds convert too. eoDetUniformMutation without bounds does not: it assigns the increment instead of adding it, so that the origin matters. The three mutations of evolution strategies without bounds do not depend on the origin. The one with a single standard deviation does not depend on the unit either as long as the deviation stays above its smallest value; below, it does. A genetic algorithm with tournaments, segment crossover and uniform mutation therefore makes the converted run, with the same fitnesses, generations and numbers of evaluations.", "quantifier": "all positive factors, shifts, bounds, ranges, draws and vectors; all populations and numbers of generations for the run", "why_tests_cant": "infinitely many inputs; a test samples a few", "anchors": ["eo/src/es/eoRealOp.h:eoUniformMutation", "eo/src/es/eoRealOp.h:eoDetUniformMutation", "eo/src/es/eoRealOp.h:eoSegmentCrossover", "eo/src/es/eoRealOp.h:eoHypercubeCrossover", "eo/src/es/eoRealOp.h:eoRealUXover", "eo/src/es/eoNormalMutation.h:eoNormalVecMutation", "eo/src/es/eoEsMutate.h:eoEsMutate", "eo/src/es/eoSBXcross.h:eoSBXCrossover", "eo/src/es/eoRealAtomXover.h:eoDoubleExchange"]}
{"id": "C398", "title": "Distributions learned in other units", "statement": "Write the individuals of a population in other units: each variable is multiplied by a positive factor of its own and shifted by a constant of its own. The box learned by edoEstimatorUniform and the means learned by edoEstimatorNormalMono are those in the new units, the variances are multiplied by the squared factors. Samples drawn with the same numbers are converted samples; the bounders that clamp or draw anew convert too. The Cholesky factor of a converted covariance matrix is, for all three LLT variants, the factor with converted rows, and fails for the same matrices; samples of edoSamplerNormalMulti convert with both unit and origin. The matrix learned by edoEstimatorNormalMulti converts with the units, but not with the origin: a shift changes it unless the shift is zero or minus twice the mean. An estimation of distribution algorithm whose operators do the same in both units makes the converted run, generation by generation; an algorithm that learns boxes from the better half does.", "quantifier": "all populations, positive factors, shifts, draws, matrices and sizes; all numbers of generations for the runs", "why_tests_cant": "infinitely many inputs; a test samples a few", "anchors": ["edo/src/edoEstimatorUniform.h:edoEstimatorUniform", "edo/src/edoSamplerUniform.h:edoSamplerUniform", "edo/src/edoEstimatorNormalMono.h:edoEstimatorNormalMono", "edo/src/edoSamplerNormalMono.h:edoSamplerNormalMono", "edo/src/edoEstimatorNormalMulti.h:edoEstimatorNormalMulti", "edo/src/edoSamplerNormalMulti.h:edoSamplerNormalMulti", "edo/src/utils/edoCholesky.h:CholeskyLLT", "edo/src/edoBounderBound.h:edoBounderBound", "edo/src/edoAlgoAdaptive.h:edoAlgoAdaptive"]}
{"id": "C399", "title": "How many generations an elitist algorithm needs on average", "statement": "Run an evolutionary algorithm on strings of n bits with an elitist replacement, such as (mu+lambda), in which every generation has an offspring made by the bit-flip mutation of a best individual, besides any other offspring of n bits. Give the strings levels such that better strings have no higher level and level 0 is optimal, and let a mutant of a string of level k have a lower level with probability at least q(k). Then the expected number of generations until an optimum is in the population, which is the sum of the probabilities of having none after 0, 1, 2, ... generations, is at most the sum of 1/q(k) over the levels from 1 to the level of any individual of the start. With the number of ones as fitness it is at most the sum of 1/(k p (1-p)^(n-1)) for k from 1 to the number of zeros of any individual of the start, and with the usual rate p = 1/n at most e n (1 + 1/2 + ... + 1/n) from any start.", "quantifier": "all lengths, rates, fitness functions with levels, starting populations, other offspring and elitist replacements; all runs, by the exact law of the flips", "why_tests_cant": "infinitely many inputs; a test samples a few", "anchors": ["eo/src/ga/eoBitOp.h:eoBitMutation", "eo/src/eoEasyEA.h:eoEasyEA", "eo/src/eoMergeReduce.h:eoPlusReplacement", "problems/eval/oneMaxEval.h:oneMaxEval"]}
{"id": "C400", "title": "How many generations an elitist algorithm needs on royal roads, and at most", "statement": "For the algorithms of C399 on a royal road with blocks of k bits and a rate p of at most one half, the expected number of generations until an optimum is in the population is at most the number of incomplete blocks of any individual of the start divided by p^k (1-p)^(n-k); with the usual rate 1/n at most e m n^k for m blocks, from any start. (The hill climbers of the library stop at once on the same problem, C387.) On any fitness function, whatever the parent of the mutant, it is at most 1/min(p,1-p)^n.", "quantifier": "all lengths, block sizes, rates, starting populations, other offspring and elitist replacements; all runs, by the exact law of the flips", "why_tests_cant": "infinitely many inputs; a test samples a few", "anchors": ["eo/src/ga/eoBitOp.h:eoBitMutation", "eo/src/eoEasyEA.h:eoEasyEA", "problems/eval/royalRoadEval.h:RoyalRoadEval", "eo/src/eoMergeReduce.h:eoPlusReplacement"]}
{"id": "C401", "title": "How many generations an elitist algorithm needs where no string is a trap, as on the long path", "statement": "For the algorithms of C399 on a fitness for which every string that is not optimal has a better one at one flip, the expected number of generations until an optimum is in the population is at most the number of fitness values above that of any individual of the start, divided by p (1-p)^(n-1). On the long k-path of dimension n = 1 + m k that is the distance of the fitness of an individual of the start to the highest one, divided by p (1-p)^(n-1), and with the usual rate 1/n at most e n times this distance.", "quantifier": "for all dimensions, k, rates, parents among the best, other offspring, elitist replacements, starting populations and numbers of generations", "why_tests_cant": "infinitely many inputs; a test samples a few", "anchors": ["problems/eval/longKPathEval.h:LongKPathEval", "eo/src/ga/eoBitOp.h:eoBitMutation", "eo/src/eoEasyEA.h:eoEasyEA", "eo/src/eoMergeReduce.h:eoPlusReplacement"]}
{"id": "C402", "title": "Exact waiting times of elitist algorithms: traps, rate one half, and a lower bound for every fitness", "statement": "Let an elitist algorithm on n bits make one mutant in every generation. If its start has a best string of which only one other string is as good, which is better and differs in d bits, and it mutates best individuals, then it has not found that one after T generations with probability exactly (1 - p^d (1-p)^(n-d))^T, so it takes 1/(p^d (1-p)^(n-d)) generations on average; on the deceptive function (zeros count, but the string of ones is best) 1/p^n from zeros, that is n^n with the usual rate, whatever the population size, so the bound of C400 for any fitness is attained. With rate one half it is a random search whatever the fitness and the parents: with K optimal strings, none in the start, it misses them with probability exactly (1 - K/2^n)^T. With a single optimal string, rate at most one half and any individual of the population as parent, it misses with probability at least (1 - p (1-p)^(n-1))^T, whatever the fitness.", "quantifier": "all lengths, fitness functions, rates, starting populations, elitist replacements and numbers of generations; all runs, by the exact law of the flips", "why_tests_cant": "infinitely many inputs; a test samples a few", "anchors": ["eo/src/ga/eoBitOp.h:eoBitMutation", "eo/src/eoEasyEA.h:eoEasyEA", "eo/src/eoMergeReduce.h:eoPlusReplacement"]}
{"id": "C403", "title": "The exact number of generations an elitist algorithm that flips one bit needs on the number of ones", "statement": "With one offspring per generation, made of a best individual by the flip of one bit drawn uniformly, and an elitist replacement such as (mu+lambda), the expected number of generations until the string of ones is in the population, which is the sum over T of the fraction of the sequences of T draws that miss it, is exactly n (1 + 1/2 + ... + 1/z) on the number of ones of n bits, z the number of zeros of the best individual of the start.", "quantifier": "all lengths, starting populations, choices among best parents and elitist replacements; all sequences of draws of all lengths", "why_tests_cant": "infinitely many inputs; a test samples a few", "anchors": ["eo/src/ga/eoBitOp.h:eoOneBitFlip", "eo/src/eoEasyEA.h:eoEasyEA", "problems/eval/oneMaxEval.h:oneMaxEval", "eo/src/eoMergeReduce.h:eoPlusReplacement"]}
{"id": "C404", "title": "What mutation and crossover do to schemata", "statement": "A schema gives some bits of the string and leaves the others open. The bit-flip mutation of a string that has k of the given bits and lacks m fits the schema with probability exactly p^m (1-p)^k, so a string that fits still does with probability (1-p)^o for o given bits. If the first parent fits and the second lacks m of the given bits, the first child of the uniform crossover fits with probability exactly (1-p)^m. If a parent fits and the given bits lie between positions a and b, of the n cuts the one-point crossover may draw at most b - a leave no child that fits, and exactly b - a if the bits at a and b are given and the parents differ there; the textbook rate (b-a)/(n-1) becomes (b-a)/n as the cut before the first bit, which changes nothing, is drawn too.", "quantifier": "all schemata, strings, lengths and rates; all draws, by their exact laws", "why_tests_cant": "infinitely many inputs; a test samples a few", "anchors": ["eo/src/ga/eoBitOp.h:eoBitMutation", "eo/src/ga/eoBitOp.h:eoUBitXover", "eo/src/ga/eoBitOp.h:eo1PtBitXover"]}
{"id": "C405", "title": "The law of an exploration with replacement", "statement": "An exploration with replacement bounded to m neighbours visits the neighbours drawn, in the order of the draws. Each sequence of m neighbours is produced by exactly one of the size^m sequences of draws. For any set of b neighbours (for instance those that improve), exactly (size-b)^m of the size^m sequences of draws visit none of them; so unless all neighbours belong to the set, no bound m makes the exploration sure to meet it. In particular a simple hill climber over such a neighbourhood stops, at a solution b of whose neighbours improve, for exactly (size-b)^m of the size^m sequences of draws.", "quantifier": "all neighbourhood sizes and bounds m at least 1, all sets of neighbours; all draws, counted", "why_tests_cant": "infinitely many inputs; a test samples a few", "anchors": ["mo/src/neighborhood/moRndWithReplNeighborhood.h:moRndWithReplNeighborhood", "mo/src/explorer/moSimpleHCexplorer.h:moSimpleHCexplorer"]}
{"id": "C406", "title": "Which neighbour a first-improvement climber takes", "statement": "A first-improvement hill climber over a neighbourhood with replacement bounded to m draws is fair among the improving neighbours: any two of them are taken for the same number of the size^m sequences of draws, whatever their fitness. If b of the size neighbours improve, each is taken for exactly N sequences where (size-b)^m + b N = size^m.", "quantifier": "all neighbourhood sizes and bounds m at least 1, all fitness functions and current solutions; all draws, counted", "why_tests_cant": "infinitely many inputs; a test samples a few", "anchors": ["mo/src/explorer/moFirstImprHCexplorer.h:moFirstImprHCexplorer", "mo/src/neighborhood/moRndWithReplNeighborhood.h:moRndWithReplNeighborhood"]}
