# Formal model of paradiseo in Lean 4 — design

## Layout

* `properties.jsonl` — the properties, in terms of the public API.
* `lean/Verif/Model/*.lean` — definitions only: one Lean function per modelled C++ function,
  with the file and lines it follows. Nothing is proved there.
* `lean/Verif/Lemmas/*.lean` — helper lemmas.
* `lean/Verif/Props/*.lean` — for each property a small specification written without the
  model's helpers, the theorem(s), and `example`s showing that the hypotheses are met by a
  concrete non-trivial case.
* `MANIFEST.json` — property → theorem names and status.
* `seeded/LOG.jsonl` — mutation experiments on the model.

## Modelling conventions

* `std::vector`, `eoPop`, iterators over ranges: `List` (or functions on indices when the code is
  pure index arithmetic). An out-of-range access is a distinct outcome (`none` / `error`), never a
  default value that could hide it, unless the theorem's hypothesis rules it out.
* Random numbers are oracles: an arbitrary stream (function or list) of values in the range that
  the generator promises, universally quantified in theorems.
* `std::sort`, `std::nth_element`, `std::shuffle`: any result allowed by the standard
  (permutation + ordering relation), universally quantified — except where a concrete sort
  suffices because the theorem only uses these facts.
* `double` is modelled by an exact ordered field (`ℚ`, or a variable ordered field); rounding,
  overflow, NaN are not modelled. `unsigned` is `Nat`; where the code relies on or suffers from
  wrap-around this is modelled explicitly (`% 2^32` or a distinct outcome).
* Fitness comparison: a linear order; `EO::operator<` is the order on valid fitnesses.
* User-supplied functors (evaluators, continuators, replacement…) are arbitrary functions.
* Unbounded C++ loops get fuel or a relation, and a theorem saying when the fuel suffices.

## Per-property plan

| id | what is modelled | how it is proved |
|----|------------------|------------------|
| C01 | oneMax full and incremental evaluation on `List Bool` | induction on the list |
| C02 | QAP full double sum and the swap delta loop over `Finset`/`List.range` | algebra on sums: split out i and j |
| C03–C04 | UBQP evaluation, delta loop, table update | algebra + invariant over move sequences |
| C05 | clause sets, occurrence table as built by each constructor, full/incr evaluation | per-clause case analysis; the value actually returned, hence an exact condition for either table; negation by concrete instance |
| C06 | NK evaluation, sigma, incremental loop | sum splitting |
| C07 | block loop, incremental block test | per-block argument; scan past the end characterised; negation by witness |
| C08 | the two generic evaluators over abstract neighbour/evaluator | direct, with moveBack∘move = id hypothesis |
| C09–C11,C17 | init/next/cont state machines with random oracle | invariant over the enumeration loop |
| C12 | two-index state machine | induction on lexicographic enumeration |
| C13–C14 | index arithmetic | number theory on triangular numbers / div-mod |
| C15–C16 | list moves | permutation lemmas, involution |
| C18–C22 | moLocalSearch loop over an abstract explorer; the concrete explorers | invariant over the loop (fuel) |
| C23–C24 | tabu memories as state machines | invariant relating state to history |
| C25–C27 | SA acceptance, cooling, continuators | decision logic; termination measure |
| C28–C29 | VN selection, VNS explorer | state machine invariants; negation |
| C30 | neighbourhood statistics loop | loop invariant |
| C31–C32 | objective vector comparators with direction vector and tolerance | order theory; witness for tolerance |
| C33–C37 | archive update loops | loop invariant (swap-with-back removal), then induction on history |
| C38–C40 | dominance depth (both algorithms), dominance matrix | refinement to longest-chain rank; witnesses |
| C41–C42 | indicator fitness and environmental replacement; elitist replacement | invariant over deletion loop |
| C43–C46 | metrics and crowding | algebra; refinement to set-theoretic specification |
| C47–C55 | EO validity automaton, population, reducers, replacement, selectors, how-many | induction, permutation reasoning |
| C56–C60 | permutation and bit operators | permutation / positionwise reasoning |
| C61 | real and integer bounds: fold, truncate, draw | the folded value is *the* mirror image inside (uniqueness), floor arithmetic |
| C62–C64 | partition, bit-permutation and k-bit neighbourhoods | state machine invariants; witnesses |
| C65–C67 | Metropolis acceptance, moCheckpoint, dynamic-span cooling | decision logic; witness |
| C68–C72 | bounded archive, g-dominance, feasibility dominance, depth after deletion, binary hypervolume | order theory, loop invariants, set algebra |
| C73–C80 | reducers (truncate, EP, linear, tournaments), merges, reduce-merge-reduce, survive-and-die, MGG, G3, steady state, splits | permutation and sorted-prefix reasoning; arbitrary streams |
| C81–C82 | epsilon comparator, archive queries | loop = specification; witnesses |
| C83–C84 | proportional selection, universal sampling | partial sums; each slot's count is floor or ceiling of the expectation |
| C85–C89 | sequential, elite, deterministic, truncated selection, selecting many | induction over the calls; inner selector arbitrary |
| C90–C92 | ranking, linear scaling, sharing | algebra on list sums |
| C93–C97 | populator with capacity, general operators, containers, breeders, SGA operators | induction over nesting and over the loops; a reallocation under a held reference is a distinct outcome; witnesses |
| C98–C99 | variable-length crossovers and mutations | loop of tries = first success; permutation reasoning; witnesses |
| C100–C105 | the loop of the evolutionary algorithm, continuators, checkpoint, best-keeping and limiting evaluators, eoSGA, restart | loop invariants over any number of generations, parts arbitrary; composed with C48, C93, C94; witnesses |
| C106–C110 | smp topologies: neighbours, sizes of the mesh, reachability, isolation, files | loop invariants on matrices, bit arithmetic, number theory; witnesses |
| C111–C112 | smp schedulers | packages = partition; transition system of main thread and workers with invariant, no bound on threads or steps |
| C113–C116 | smp island model, shared criterion, numbering | transition system of islands, model and message threads with a conservation invariant; witnesses |
| C117–C119 | serial: printing and the parser (with explicit non-termination and out-of-range reads); decimal numbers | mutual structural induction over entities; arithmetic on decimal roundings |
| C120–C122 | mpi: master, workers and channels; parallel apply; assignment algorithms | transition system with an invariant over an abstract assignment algorithm, both algorithms shown to meet it; termination measure; witnesses |
| C123–C124 | edo Cholesky factorisations (LLT, LDLT, abs, zero); a square root of a negative number or a division by zero is a distinct outcome | invariant over columns, quadratic forms, uniqueness by induction; witnesses |
| C125–C127 | edo bounders, rounding/modulo repairers, dispatcher | list induction, floor arithmetic |
| C128–C130 | edo uniform, binomial, independent normal estimators and samplers | loop invariants (Welford recurrence) |
| C131–C132 | edo multivariate normal estimator and sampler | sums; expectation = any linear functional; dimension argument for too few individuals |
| C133 | acceptance and inner loop of edoEDASA | real analysis; induction |
| C134–C138 | edo CMA-ES: weights, rates, update of mean, paths, covariance and step size, lazy decomposition (solver = any function meeting its contract, shown to exist), sampler | real analysis of the rates, quadratic forms, invariant over any number of generations; witness family for break-down |
| C139–C145 | eo particle swarms: particles, topologies, velocities, flight, both algorithms, weights and bound modifiers | invariant of remembered bests over the visited places, preserved by informing one particle, lifted to both loops; generic "stays" invariant for bounds and linear equations; witness for the ring |
| C146–C150 | eo operators on real vectors and evolution strategies: uniform, deterministic-uniform, normal, one-fifth and self-adaptive mutations; segment, hypercube, uniform, simulated binary, local and global crossovers | component-wise induction over the vector; limits of the segment factor as an invariant of the loop; circular window of the one-fifth rule equals the last w generations (sum over residues); rotations preserve the squared length by induction over the list of rotated pairs |
| C151–C153 | eo's CMA-ES: parameters, weights, re-estimation of mean, paths, matrix and step size, numerical repairs, eigensystem with retries | weights: generic inequality on the effective number; matrix: quadratic forms, invariant `Proper` over runs with an arbitrary solver that may fail; first generation: rational inequality between the rates, using log n ≤ n - 1 |
| C154–C158 | genetic programming: parse trees with remembered sizes, sequences, operators, initialisers, typed variants | separate specification of a tree (`count`, `height`, `places`, `post`) that ignores what is remembered; `Exact` says both agree; induction on trees; parsing proved sound and complete; cycle of half and half by explicit states |
| C159 | two-objective hypervolume archive | invariant `Ok` (sorted front, fitness equal to the area between neighbours, size) kept by each step; `vol` defined recursively, shown equal to the Lebesgue measure of the dominated region; contribution by erasing; undefined reads are `none` |
| C160 | archive of hyperboxes | invariant on ideal, nadir and the normaliser; scan of members with swap-removal taken apart in `step_cases`; boxes are integers or, for a range of zero, not a number; monotonicity and width of boxes; two objectives: three situations of the bounds |
| C161 | SPEA2 archive | loop of replacements by an invariant that tracks the swap with the last member; rows of distances by `RowsOk` (sorted permutation of the distances to those left); thinning compared with a separate specification `Thinned`; final contents as a permutation |
| C162 | eoNDSorting | general case: the counters of the code simulate the peeling of C38 and reuse its invariant, with the fronts and values added; two objectives: invariant on the tops of the piles with repeated vectors (`TInv`); worths from the intervals [k, k+1); crowding per objective; singleton fronts as a formula for every number of objectives and a witness |
| C163 | cached worths | invariant worths = g(cache) over any sequence of calls; sort and truncation as list equations; witness of stale worths |
| C164 | dual fitness | operators as functions with the assertion as an outcome; strict weak order by cases on the two feasibilities; best element by induction over the scan; split as filters; defects as equations for all operands |
| C165 | assembled fitness | shared names as a state passed along; out-of-bounds write as an outcome; reading as a parser over tokens; loops of the statistics by induction |
| C166 | order statistics | nth_element is any function with its contract; rank stated by counting (`HasRank`), independent of sorting; quartiles compared by counting; best so far by induction over populations |
| C167 | moments, correlation | sums over lists; Cauchy-Schwarz by the discriminant; not-a-number as an outcome |
| C168 | distances, diversity | common loop; metric axioms by induction, Minkowski inequality for the Euclidean one; bound one half by columns |
| C169 | Unified DMLS, PLS1/PLS2: loop, four explorers, two selections, over the unbounded archive model; neighbourhood = enumeration oracle, evaluation of neighbours = function assumed right by hypothesis | invariant (visited ⇒ neighbours covered) through exploration and archive updates; measure 2·uncovered + unvisited for termination |
| C170 | Same model, plus DMLSMonOp and DMLSGenUpdater | closed sets of states that never meet the natural stop; witnesses for the default replacing archive and the no-desimproving explorer; coverage for the hybrids |
| C171 | NSGA-II: assignment of ranks through `mObjectives`, elitist replacement, do-while loop; crowding, sort, breeding and continuator are oracles | ranks of a strict partial order are strictly monotone and 1 exactly on the first front; a sorted list cut at the population size; induction over generations with coverage (transitive) |
| C172 | SEEA and ASEEA loops over the unbounded archive, archive selection, moeoEasyEA loop with the size-change exceptions | archive = archive of the history by induction; resubmitting a member permutes an antichain archive; case analysis of the selection; loop induction |
| C173 | eoState registration, save and load on texts (lists of characters), both formats | the closing tag has a newline, no line of getline has: loop induction; for the corrected tag, parsing of the printed sections by induction on the objects |
| C174 | the token loop of eoParser::readFrom with the two maps, getValue, userNeedsHelp, printOn | words as steps on maps, fuel irrelevance, last-occurrence specification, parsing the printed text line by line |
| C175 | setValue/getValue of vector<double> (natural numbers in decimal), eoParamParamType texts | exact computation of the first element; induction over the arguments; non-termination for every fuel |
| C176 | `Rng`: the 32-bit state array, the three loops of `restart`, seeding, tempering as coded | invariant: after any number of calls the array, the read position and `left` describe a window of the one infinite sequence satisfying the recurrence; injectivity of temper/twist and of the seeding multiplier for the different seeds |
| C177 | `Rng`: uniform, random, flip, binomial, random_generator, powerlaw over exact numbers of the word drawn | bounds by arithmetic, counting of words by intervals |
| C178 | `Rng`: reseed, clearCache, normal with its cache, printOn/readFrom | simulation relation over all later call sequences |
| C179 | `BitMut`: the seven mutations on top of `detSingleBitFlip` (C59) | exact Hamming distance from C59, bounds of the draw from C177; induction over the rejection loop and the buckets |
| C180 | `QuadTree`: `k_succ`, insert_aux, replace, reconsider, reinsert, remove, test1, test2 on an inductive tree | the slot of a node is the set of objectives not worse than its parent; well-formedness and pairwise incomparability invariant, contents as multisets, one specification per function; the limit of the loops of `remove` is a parameter |
| C181 | `QuadTree`: `update`, moeoIndexedArchive on an index given by two operations | the archive/tree correspondence (each index one too small) as invariant of runs without domination, then one step |
| C182 | `QuadTree`: the std::set ordered by the second objective as a sorted list | case analysis on the place of the new key; invariant sorted in both objectives |
| C183 | `QuadTree`: the archive on the sorted index | as C181; concrete runs for the loss |
| C184 | `Scalar`: the normaliser, its updates and `change_max` | fold characterisations of the extremes, then algebra in an ordered field |
| C185 | `Scalar`: the scalarising functions and distances | one monotonicity lemma for folds (weak and strict), applied to each function; real powers for the weighted Chebychev distance |
| C186 | `Weights`: fixed time, one and both directions | closed form of `current` and of the direction by induction on the number of calls |
| C187 | `Weights`: anytime, Qexplore | interval invariant of the queue; each Qexplore call gives the next reduced fraction in the order by denominator and numerator, coded as a number that grows |
| C188 | `Weights`: augmented Qexplore, loop with fuel | a round is the successor among sorted lists in numerical order, or the first list of twice the length; hence every list is reached once; acceptance characterised by counts; equal weights come from equal states |
| C189 | `Diversity`: distance matrix, sharing, front by front; the power is a function | the row sum is the niche count as a finite sum; the greatest by a fold |
| C190 | `Diversity`: rows of distances, sorting, `getElement` | the row is a permutation of the distances to the others; place in a sorted list |
| C191 | `MoeoFitness`: `countFitness`, `rankFitness`, `countRanking` on the dominance matrix of C40 | dominators of the better one, and itself, are dominators of the worse one |
| C192 | `ILS`: `ilsExplorer` in the loop of C18 | orbit of the explorer; induction on iterations |
| C193 | `ILS`: `Count`, `restartPerturb` | the counter is the number of iterations since the last move or restart |
| C194 | `ILS`: `nhPerturb` | the position is the number of iterations since the last move, modulo the size |
| C195 | `ILS`: `monOpTimes`, `monOpPerturb`, `monOpDiversify`, two evaluators | induction on the applications; 32-bit arithmetic |
| C196 | `ILS`: `noImprove`, `bestCheck` | induction on the calls; last improving call |
| C197 | `ILS`: `evalsInit`, `evalsCont`, `timerInit`, `timerCont` | modular arithmetic |
| C198 | `ILS`: `bestInit`, `bestStep`, `bestRun` | 'first best' as the invariant of the fold |
| C199 | `ILS`: `randomSearch` in the loop of C18 | orbit of the explorer |
| C200 | `ILS`: `aspirMem` in the tabu explorer of C21 | the remembered best is the best of the orbit |
| C201 | `Sampling`: `sampling` = loop with the recording checkpoint | the loop with a checkpoint state projects to the loop without; climbers of C18/C19 |
| C202 | `Sampling`: `basic`, `distances` | induction; variance identity |
| C203 | `Sampling`: accumulators of `autocorrelation` | invariant: cells up to s hold the sums over the first k positions; Cauchy-Schwarz |
| C204 | `Sampling`: `phiRow` | induction on the order (Durbin-Levinson), reflection of sums |
| C205 | `FastGA.offspring`, `breed`, `generation`, `loop` with the limited and unlimited evaluators | invariants over generations; `Gens` names the complete generations independently of the loop; witness for the lost generation |
| C206 | `decodeIndex`, `foundryFitness` over rationals | characterisation of the ceiling, list induction |
| C207 | `Forges` with numbered objects and the list of deleted ones | ownership invariant over all sequences of uses |
| C208 | `Cellular.cell`, `sweep`, `loop` | induction over cells, then generations |
| C209 | `LongPath.rank`, `nbZero`, `fitness` | induction over blocks against an explicit enumeration of the path |
| C210 | `DTLZ.dtlz1` … `dtlz7` | sum and sum of squares of the product form by induction over the objectives; dominance decreases both |
| C211 | `DTLZ.sbxGene`, `sbx`, `polyGene`, `poly` | inequalities on real powers |
| C212 | `Inst.choose`, `randomLinks`, `consecutiveLinks`, `contrib…` | invariant of the partial shuffle; composed with C06 |
| C213 | `Inst.load`, `save`, `skipComments` | induction over the comment lines; every branch throws |
| C214 | `Inst.satRandom` | invariant of the partial shuffle; composed with C05 |
| C215 | `Inst.satLoad`, `satSave` | induction over clauses and literals; endless reading for every fuel |
| C216 | `Inst.bbRoyal`, `queenFit`, `popSolFit` | folds as sums; unsigned arithmetic modulo 2^32 |
| C217 | `Init.fixedLength`, `variableLength` | lengths of the recursion; every length by choosing the draw |
| C218 | `Init.initPermutation` | the shuffle is any permutation |
| C219 | `Init.Combined` | C54 (`rngRoulette`) applied to the rates in the order of adding |
| C220 | `Init.flOrAll`, `flOrK` | induction on the vector and on the number of mutations |
| C221 | `Init.countedRun`, `saverRun`, `timedRun` | induction on the calls |
| C222 | `Init.uniformGen1/2`, `uniformGenInt`, `randomGenInt` | exact ranges, both directions |
| C223 | `Init.esChromInit` | per kind of chromosome, over the reals |
| C224 | `Worth.Cache` | invariant: the cached numbers are those of the cached size; the loop over a permutation overwrites everything |
| C225 | `Worth.WSel` | C53, C54 applied to the worths; exact condition of `check_sync` |
| C226 | `Worth.FitType` | case analysis over the kinds of types |
| C227 | `Pso.integerRule`, `extendedVel`, `velocityInitFixed` | `Stays` invariant of C142 with integrality |
| C228 | `Pso.sigFlight` | real exponential of Mathlib; draws chosen to reach any string |
| C229 | `Moeo.hvDiff` over `hvMetric` (C45) | bounds characterised by `IsRange` (unique); Lebesgue measure; a box of positive measure for strictness |
| C230 | `Moeo.hypContinue`, `dualHypContinue`, `toParetoSet` | from C229 and its antisymmetry; witness by volumes of boxes |
| C231 | `Moeo.entropyMetric` | permutation of the filter by strong induction; identities of real logarithms |
| C232 | `Moeo.moRoulette` over `Sel.rouletteWheel` | from C54 |
| C233 | `Moeo.moDetSelect`, `moStochSelect` | induction over the rounds, draws are oracles |
| C234 | `Moeo.BestStat`, `averageObj`, `binaryStat` | induction over populations |
| C235 | `Moeo.refFitness` | from C43 |
| C236 | `Eig.eig` (`householder`, `qlAlgo`) | induction on the block size: columns orthonormal and `A Q = Q T`; a sweep invariant with the bulge, one row at a time, closed by `linear_combination`; dropping an entry decreases the Frobenius norm |
| C237 | `Eig.eig` | the three ends of the loops; a cut-off run keeps an entry that is not zero; evaluation of one sweep for the witness |
| C238 | EDA runs | `Model/EdoAlgo`: run with a record of its generations, all operators arbitrary | induction over the loop: it refines the specification `Follows`; sizes, best, final distribution from it |
| C239 | criteria on distributions | `Model/EdoAlgo`: criteria from the eigenvalues and numbers given | trichotomy on the smallest eigenvalue; spectral decomposition |
| C240 | transformation, combined estimators | `Model/EdoAlgo`: loop bounded by the size it changes; deleted cell | evaluation; no call is defined |
| C241 | matrices of bits | `Model/EdoAlgo`: estimator with its asserts, sampler | induction over the population and over the rows |
| C242 | nodes, replacement, crossover | `Model/SymTree`: numbering, insertion, selectors, subtree crossover | preorder listing; mutual induction over the tree |
| C243 | homologous crossover, mutation of nodes | `Model/SymTree`: homolog, doMutate, Language, size-level tries | mutual induction; places as paths |
| C244 | random expressions | `Model/SymTree`: buildTree, initDepth with unsigned wrap | induction over the depth |
| C245 | arithmetic of expressions | `Model/MathSym`: SymOps over evaluation on reals | induction over the collected arguments |
| C246 | simplification | `Model/MathSym`: simplify with constant folding | mutual induction; evaluation as specification |
| C247 | constants | `Model/MathSym`: getConsts, setConsts, mutateConstants | mutual induction |
| C248 | lambdas | `Model/MathSym`: create_lambda, new_lambda, compress, expand_all with the depth of recursion | call equals body by well-formedness; counting of occurrences for the end |
| C249 | symbolic derivative, right rules | `Model/MathSym`: diff, derivative on expressions over the reals | induction over expressions; `HasDerivAt` of the value along one input as specification |
| C250 | symbolic derivative, wrong rules | the same | chain rule; concrete witness for the power |
| C251 | interval check | `Model/MathSymEval`: ivalT, calcBounds, inBounds over a library of intervals on reals | mutual induction; `Encloses` is what is assumed of the library |
| C252 | evaluation of populations | `Model/MathSymEval`: popScan, popAssign | induction over the two populations; per-individual specification |
| C253 | function table | `Model/MathSymEval`: compile with sharing, run in order | invariant of the table under addition; induction over expressions |
| C254 | running statistics | `Model/MathSymReg`: Mean, Var, Cov, CovMatrix | induction from the end of the data |
| C255 | least squares | `Model/MathSymReg`: slope, ols, wls, regularised | normal equations, sum of squares |
| C256 | error measures | `Model/MathSymReg`: single and batch errors, worst performance | algebra over sums; witnesses for the wrong cases |
| C257 | raw text | `Model/MathSymRaw`: write_raw, read_raw | mutual induction with a rest of text |
| C258 | numbers of objects | `Model/MathSymRaw`: table of tokens and free list | invariant `InOrder`; kernel computation for the reachable overflow |
| C259 | dichotomic weights | `Model/Dicho`: archive, waiting list, turn, place of the iterator | invariant over all call sequences (antichain, sorted, iterator valid outside one pattern); `Neighbours` is stated on objective values only; algebra for the tie |
| C260 | random and equal weights | `Model/Dicho` | sums of lists |
| C261 | algorithm from the command line | Selection and replacement of make_algo_scalar as data (`makeSelect`, `makeReplace`), `Repl.run` into the modelled replacements | case analysis over keywords; composition with C48, C49, C50 |
| C262 | stopping from the command line | `criteria`, `makeContinue`, one `Cont` per criterion | each criterion answers as in C101; induction over the calls of the combined one |
| C263 | initial population | `makePop`, `readBack` with `State.load` | lists; composition with C173 |
| C264 | operators from the command line | `makeGaOp`, `makeEsOp` with `Init.Combined` | case analysis; composition with C219 |
| C265 | general replacements | `decodeReduce`, `easeaReplace`, `General.run` = `reduceMergeReduce` | unfolding of the presets, C50, C74 |
| C266 | niche size | `atoi`, `moeoNiche`, `Diversity.frontSharing` | induction over digits; all niche counts are zero |
| C267 | saved vectors and populations are loaded back | `Persist`: streams as text plus state, formats as oracles | reading lemmas, induction over genes and individuals; the two-word fitness by computation |
| C268 | bit strings are loaded back iff not empty | `Persist` bitPrint/bitRead | reading lemmas, both directions |
| C269 | reading past the end marks as evaluated | `Persist` eoRead on an exhausted stream | case analysis, induction over the missing individuals |
| C270 | evolution-strategy individuals are loaded back | `Persist` simple/stdev/full | induction over deviations and correlations |
| C271 | viruses, aged bit strings, strings, particles are not | `Persist` virus/aged/string/particle | explicit result of the reading |
| C272 | multi-objective individuals keep genes and objectives only | `Persist` moeo readers | reading lemmas |
| C273 | saved partitions cannot be loaded | `Persist` partRead | case analysis |
| C274 | numbers of individuals as parameters | `Persist` howMany | case analysis |
| C275 | bounds of vectors as text | `BoundText` vbRead/vbPrint over characters | induction over the groups, reading lemmas of `Persist`; failures by explicit result |
| C276 | bounds of one variable as text | `BoundText` general/generalRead | character splitting lemmas, case analysis |
| C277 | integer vectors under real operators | `RealToInt`: the real operator as an arbitrary function | induction over places, rounding lemmas of `EOBounds` |
| C278 | virus operators | `VirusOps`: coins and draws as lists | induction over marks and coins |
| C279 | evolution strategies: initialiser from the command line | `ESCommand`: parameter maps of `Param`, readers of `BoundText`, the reader of numbers arbitrary | case analysis of the making, induction over bounds |
| C280 | evolution strategies: operator from the command line | `ESCommand` | case analysis, lemmas on reading words |
| C281 | learning rates | `ESCommand` over the reals | algebra of roots |
| C282 | copies of bounds of vectors | `ESCommand`: heap of bounds objects, handles | case analysis of allocation and freeing |
| C283 | flips with a probability; statistics on neighbours | `FlipNeighborhood`: coins as a function | loop invariants |
| C284 | fuzzy objective vectors | `Fuzzy`: triangular numbers over an ordered field | counting over objectives |
| C285 | interval arithmetic contains every result | `IntervalLib` | case analysis on signs and infinities; corners of the rectangle for the exact image; witnesses for pow and fmod |
| C286 | intervals as sets, comparisons | `IntervalLib` | embedding of floating-point numbers into a linear order |
| C287 | functions on intervals | `IntervalTransc` | monotonicity, periodicity; reduction modulo 2π in exact arithmetic; discharges the assumption of C251 |
| C288 | restarts over workers | `MultiStart`: master and workers as transitions, a run is a function of the worker's state | invariant over all executions, measure for the end, shares of the static assignment from C122 |
| C289 | seeds of the workers | `MultiStart`, `Rng` (32-bit words) | divisibility, same / different streams from C176 |
| C290 | the communicator | `MultiStart`, `Serial` | induction over the texts, round trip of C117 |
| C291 | file monitor | `Monitors` | induction over the calls; splitting of joined texts |
| C292 | monitor on a stream | `Monitors`: a stream with a pending width | induction over parameters and calls |
| C293 | snapshots | `Monitors` | induction over the calls; third vector never read |
| C294 | timed monitor, time counter | `Monitors`: clock readings as inputs | arithmetic modulo 2^32, induction over the calls |
| C295 | timers | `Monitors` | linear arithmetic; an exact balance over a series |
| C296 | logger | `Monitors`: operations sent to the logger | induction; the specification looks for the last level, selection and file |
| C297 | signals | `Monitors`: runs of signals and checks | blocks of signals between checks |
| C298 | savers | `Monitors` | induction; injectivity of decimal texts |
| C299 | best fitness, limit on a parameter | `Monitors` | induction; 32-bit words |
| C300 | evolutionary algorithm on workers | `MasterWorker` on `SmpScheduler`, `EOAlgo` | every allowed order is a permutation; simulation of the loops |
| C301 | particle swarms on workers | `MasterWorker` on `PSO` | loops over particles as pointwise updates; concrete witness |
| C302 | evaluation by a command | `ExternalEval`: shell as an argument | induction over chunks of the output |
| C303 | evaluation by named pipes | `ExternalEval` | case analysis |
| C304 | dumped solutions | `ExternalEval`: the disk is a function | induction; injectivity of decimal texts |
| C305 | pipes | `ExternalEval`: formats, lines | counting percent signs; induction over the lines |
| C306 | foundry: assembly | `FoundryEA` on the forges of `FastGA` | case analysis |
| C307 | foundry: length of a run | `FoundryEA` on `EOAlgo` | induction over the generations |
| C308 | IBEA: who is removed | `Ibea` on `MoeoMetric`, `MoeoFitness` | penalties respect dominance (`Respects`), removal by removal; two concrete witnesses |
| C309 | IBEA: units | `Ibea` | bounds and scaled differences under affine maps; induction over removals and generations |
| C310 | MOGA: marks of copies | `Ibea` (namespace `Moga`) on the dominance matrix of `MoeoFitness` | counting dominators, invariant over generations, concrete witness |
| C311 | what a checkpoint from the command line prints | `MakeCheckpoint` | closed form of what is made for all options, invariant over generations |
| C312 | Ctrl-C monitor | `MakeCheckpoint` | the same invariant with the time of the last signal |
| C313 | saved states | `MakeCheckpoint`, savers of `Init` | the same invariant with the counters of the savers |
| C314 | FDC and assembled checkpoints | `MakeCheckpoint` | closed forms; null pointer iff file without screen, missing first term |
| C315 | checkpoint of MOEO | `MakeCheckpoint` | closed form, the same invariant |
| C316 | results directory | `MakeCheckpoint` (`testDirRes`) | case analysis on the words of the command |
| C317 | exceptions | `Exceptions` | case analysis on the class; digits are injective |
| C318 | short constructors of moSA | `AlgoCtors` on `LSParts` | one unfolding of the loop; least number of coolings from C25_annealing_ends |
| C319 | moTS with a size | `AlgoCtors` on `LocalSearch`, `LSParts`, `ILS` | invariant: the ring is the one of the calls so far (C24), the remembered solution is the best visited |
| C320 | stopping, multi-objective | `ContinueMoeo` | invariant: all counters equal the number of calls until one stops |
| C321 | metric as fitness | `MetricFitness` | induction on the population; order of reciprocals |
| C322 | store of functors | `FunctorStore` | induction on the vector with the heap |
| C323 | edo checkpoint | `EdoMonitor` | induction on the continuators |
| C324 | edo snapshots | `EdoMonitor` | induction on the calls (from the end) with the directory |
| C325 | dual hypervolume difference | `DualHv` on `MoeoStop` | the two foldings are minimum and maximum in either order |
| C326 | irace interface | `Irace` | arithmetic modulo 2^64 |
| C327 | distances of vectors | `Distance` on `Scalar` | sums of absolute values and squares (Minkowski); the normaliser undoes an affine change |
| C328 | what distances refer to | `Distance` | invariant over operations: the binding of a distance does not change |
| C329 | vector monitors | `WalkSampling` | induction on the calls; the monitor shows the list of values |
| C330 | adaptive walks | `WalkSampling` on `LocalSearch`, `Sampling` | orbit of the hill climber (C19, C201) with the count of evaluations |
| C331 | statistics, minimised | `WalkSampling` on `LSParts` | simulation: better and worse exchanged; induction on the solutions |
| C332 | evaluators that throw | `EvalThrow` | induction on the population; count of rejected individuals decreases by one per retry |
| C333 | round-robin, best, stochastic selectors | `SelectMore` on `EOReplacement` | induction on calls; residues |
| C334 | comparators accepting equals | `EqualComparators` on `LocalSearch` | invariant of the orbit; closed set of plateau solutions |
| C335 | neutral-walk sampling | `CloudSampling` on `WalkSampling` | orbit of the walk; C20, C30, C331 |
| C336 | fitness clouds | `CloudSampling` | orbit of the walk; C201 |
| C337 | flow-shop evaluation | `FlowShop` | recurrence of the completion times; induction on machines and jobs against every feasible schedule |
| C338 | flow-shop crossover | `FlowShop` | the loop over the other parent is a filter; permutations of a range |
| C339 | flow-shop instances | `FlowShop` | induction on the jobs of the file, texts of lines |
| C340 | Mastermind fitness | `Mastermind` | counting of multisets: blacks and greedy whites against `Multiset.inter` |
| C341 | Mastermind runs and the check of the solution | `Mastermind` | closure of the reachable chromosomes; case split of the check |
| C342 | operators of the parallel tutorial | `QapTutorial` | shuffles reach all permutations; merging of the common positions |
| C343 | copies and costs of the parallel tutorial | `QapTutorial` | unfolding, witnesses for every pair of different costs |
| C344 | training of perceptrons | `Mlp` | invariant of the training loop over an arithmetic without laws; ordered fields for the bound |
| C345 | back-propagation | `Mlp` | `HasDerivAt` of the net by induction over the layers; the pass equals a recursive specification; sum over the samples |
| C346 | Populations evaluated by worker processes over a whole run | `MpiSession` | invariant of all executions: every finished job is an execution of `Mpi` (refinement by erasing the ignored orders), a measure that decreases with every step, and a step in every state that is not final |
| C347 | Static assignment with the default options never ends | `MpiSession` | from the invariant of C346 and C121 (a job with more packets than runs is never done) |
| C348 | How training adapts its rate | `Mlp` | Cauchy-Schwarz over all neurons; induction over the epochs |
| C349 | Shapes of perceptrons | `MlpNet` | induction over the sizes |
| C350 | Text of perceptrons and sample sets | `MlpNet` | induction over layers, neurons, numbers, with arbitrary printing and reading |
| C351 | What the operators on perceptrons do | `MlpNet` | real analysis (sigmoid, square root); a witness net with a hidden layer; C344 for the mutation |
| C352 | Fitness of perceptrons | `MlpNet` | case analysis; errors as optional numbers, none for NaN |
| C353 | Formulas of symbolic regression | GpSymreg (trees, text, evaluation, best) | structural induction on trees with a reader of formulas as specification; induction on evaluations from the right |
| C354 | Points of symbolic regression | GpSymreg (exact float loop) | kernel evaluation of the closed loop; congruence of the fold |
| C355 | Adapters of operators and foreign individuals | OpAdapters | case distinction on the coin; round trip with the streams of Persist |
| C356 | The estimation of distribution algorithm of EO | OpAdapters (drawAll, edaLoop) | equivalence with an inductive relation of runs, by induction on the fuel |
| C357 | What gnuplot is told by the monitor | Gnuplot (send, Mon) over Monitors | functional induction on the format; induction on calls |
| C358 | Snapshots shown by gnuplot | Gnuplot (Snap) over Monitors | induction on calls from the right; arithmetic of remainders |
| C359 | A formula printed as C is compiled to the formula | Model/SymCompile (cprint; strip, parse, CE.val: a fragment of C) | every text is read as a primary expression, whatever follows: induction on bodies and formulas; negation for the inverse of a lambda |
| C360 | Several formulas compiled into one function | Model/SymCompile (findEntry, writeEntries, Runs) | invariant of map, lines and memory; keys of the map = subformulas; names injective |
| C361 | One compiled function for each formula | Model/SymCompile (findCode, compileEach) | the table holds only texts that the formulas have by themselves |
| C362 | Counted pointers | Model/SharedPtr | invariant: counters = uses, up to permutation of the variables; witnesses for the two misuses |
| C363 | Formulas stored once and counted | SymDag | counts = references from variables and nodes, as an invariant under permutation of the node list; release of a list of pending references by induction on what is stored; refinement to a program on plain values; distinct nodes denote distinct formulas |
| C364 | Size and depth of a formula | SymDag | the stored statistics belong to the denoted formula, kept by every step; concrete programs for the dependence on history |
| C365 | The language of the symbolic regression program | Symreg | the calls of add_function computed for every combination of the groups equal a written-out menu; the table by folding; generation from C244 |
| C366 | Size statistics of the symbolic regression program | Symreg | folds; stored nodes correspond one to one to the formulas alive (C363), counted by lists without duplicates |
| C367 | The data file of the symbolic regression | Dataset | the written lines are found again by induction on the text; the loop over cells in closed form; minima by induction on the records, maxima by order duality; the check of bounds from C251 |
| C368 | Alternative comparisons of intervals | IntervalCmp | ends of the intervals as extreme members; `possible` and `tribool` reduced to `certain` of the negated operator; lexicographic order of Mathlib |
| C369 | Fitness-distance and neutral degree samplings | DegreeSampling | the loop of random search in closed form (C330), the counter of equal neighbours by induction on the neighbours, series of C331 for solutions without neighbours |
| C370 | Islands made by the wrapper share their criteria | SmpShared | invariant of all interleavings relating the shared counter to the generations and to the number of stopped islands; explicit schedules for the converse |
| C371 | Law of the tournaments | EOReplacement | the draws are functions from rounds to positions; the winner is below a threshold iff all drawn are (C53), so the set of draws is a product and its cardinality a power |
| C372 | Random order without replacement is uniform | Neighborhood | existence and uniqueness of the draws for a given order, by induction on the keys still available |
| C373 | Shuffles | EOSelect, QapTutorial, EOOperators | existence and uniqueness of the draws for a given order (as C372); for eoDetSingleBitFlip, `n!` times a common count cannot be `n^n` since `n-1` divides one and is prime to the other |
| C374 | Choices by drawing again | EOOperators | characterisation of the draws giving a pair; for points and flipped bits, moving the positions by a permutation moves the result (equivariance), hence a bijection between the sequences of draws |
| C375 | Stationary distributions of annealing and Metropolis-Hastings | LSParts, CloudSampling, LocalSearch | the set of numbers accepting a move is an interval of length min(1, w(y)/w(x)) (Lebesgue measure); detailed balance, then summation |
| C376 | Convergence of an elitist algorithm with bit-flip mutation | EOAlgo, EOReplacement, EOOperators | finite sums over the flips of T generations: induction on T, absorbing event reached by at least one vector of flips of weight at least min(p,1-p)^n from every state |
| C377 | Random walks | LocalSearch, Sampling | induction on the loop; recursive specification of the walk |
| C378 | Connected neighbourhoods | Neighborhood | selection sort with the move that brings an element forward; induction on the prefix already right; for bits, the distance falls by at most one per flip |
| C379 | Laws of bit-flip mutation and uniform crossover | EOOperators | induction on the strings, splitting the sum over the flips by the first one |
| C380 | Uniqueness of the stationary distributions | LSParts, CloudSampling, LocalSearch | the ratio of an unchanged vector to the stationary weights is harmonic (detailed balance); maximum principle along the moves |
| C381 | Statistics that read another statistic | StatReaders | induction on the statistics of one pass, then on the calls |
| C382 | A local search with a target fitness | FitTarget, LocalSearch | induction on the iterations; for climbers the invariant of C19 |
| C383 | Convergence in law of annealing at a fixed temperature and of Metropolis-Hastings walks | LSParts, CloudSampling | the law of t iterations (volume of the draws) is the t-th power of the one-step matrix, by induction with Fubini; some power of the matrix is positive, hence averages contract; reversibility and C375 give the limit |
| C384 | SEEA/ASEEA find the Pareto front | MoeoEA, Moeo, EOOperators | the run as a process on the list of everything submitted (C33); every Pareto vector is absorbing and reached with the probability of one pattern of flips; union bound |
| C385 | Walks on permutations converge in law | LocalSearch, Neighborhood | the moves keep the elements, are undone by a move of the neighbourhood (C15) and connect the permutations (C378); then C383 |
| C386 | Bounded flips can be stuck | EOAlgo, EOOperators, EOReplacement | invariant: all strings are zero; every other string within k flips is strictly worse and loses against mu parents (C48) |
| C387 | Hill climbers on OneMax and royal road | LocalSearch, IncrEval, Neighborhood | induction on the number of zeros over the loop, with the step lemma of the climbers and C01/C07 |
| C388 | Hill climbers on the long path | LocalSearch, LongPath | countdown induction over the loop; only the next point is better (C209); bounded fitness for any start |
| C389 | Hill climbers on MAX-k-SAT | LocalSearch, IncrEval, Instances | double counting over flips and clauses at a local optimum; C214 for the clauses drawn |
| C390 | Increasing transformations of fitness | LocalSearch, AlgoCtors, EOReplacement, EOSelect | simulation between the two runs, service by service; concrete witnesses for what does depend on the scale |
| C391 | Regraded objectives | Moeo, MoeoFitness, MoeoEA, MoeoDMLS | index by index through the loops of the comparators; simulation of the local search; concrete witnesses for unit with tolerance, lexicographic order, epsilon |
| C392 | Runs of eoEasyEA under increasing transformations | EO, EOAlgo, EOBreed, EOReplacement | simulation of the two runs: twins before evaluation, images after it; each component shown to respect it, and an instance run to its end |
| C393 | Zeros and ones alike | EOOperators, BitMut, EOAlgo, EOBreed, EOReplacement | each step of the loops commutes with the mask; the run through the simulation of C392, which allows a recoding of genomes |
| C394 | Swarms in other coordinates | PSO, Velocity | every step of a generation commutes with the change of coordinates; clamping commutes with increasing affine maps and, bounds exchanged, with decreasing ones |
| C395 | Numbering of elements | EOOperators, Neighborhood, EOAlgo, EOBreed, EOReplacement | naturality of the loops; marks and tables of the crossovers indexed by renumbered elements; the run through C392 on the type of permutations |
| C396 | Local searches on rewritten problems | LocalSearch, LSParts, Neighborhood | simulation: each service of an explorer commutes with the map of solutions; by induction over the loop |
| C397 | Operators on real vectors in other units | ESOps, EOBounds, EOAlgo | structural induction over the vectors; minima, maxima and comparisons commute with increasing affine maps; the run by C392 with the conversion as recoding |
| C398 | Distributions learned in other units | EdoEstim, EdoCholesky, EdoRepair, EdoAlgo | structural induction; a simulation relation between the one-pass recurrences, whose means differ before the first value; the loops of the factorisation commute with scaling of rows; induction over the generations |
| C399 | How many generations an elitist algorithm needs on average | EOAlgo, EOOperators, EOReplacement, IncrEval | fitness-level method: induction over the number of generations with the sum of 1/q(k) as potential, over all sequences of flips with their exact probabilities; single flips give the probability to improve |
| C400 | How many generations an elitist algorithm needs on royal roads, and at most | EOAlgo, EOOperators, EOReplacement, IncrEval | C399 with the number of incomplete blocks as level, improved by flipping exactly the zeros of one block; geometric series over the bound of C376 for any fitness |
| C401 | Expected number of generations without traps | EOAlgo, EOOperators, EOReplacement, LongPath | fitness levels of C399 with one level for every fitness value; one flip of a given bit has probability p (1-p)^(n-1); C209 gives the better neighbour on the long path |
| C402 | Exact waiting times of elitist algorithms | EOAlgo, EOOperators, EOReplacement | the generation with one mutant as a process: it has an optimum iff it had one or the mutant is one; probability of that event by C379; geometric law by induction over the generations; geometric series |
| C403 | Exact number of generations with one-bit flips on the number of ones | EOAlgo, EOOperators, EOReplacement, IncrEval | the number of zeros of the best goes down by one with probability z/n and never up; potential of harmonic sums with drift -1, whose expectation tends to 0 |
| C404 | What mutation and crossover do to schemata | EOOperators | induction over the string with the flips or coins split at the first one, as in C379; cuts of the one-point crossover counted as an interval |
| C405 | The law of an exploration with replacement | Neighborhood, LocalSearch | induction over the remaining visits gives the keys as a map of the draws; the sequences that avoid a set are a product of complements, counted |
| C406 | Which neighbour a first-improvement climber takes | Neighborhood, LocalSearch | the neighbour taken is the first improving draw; exchanging two improving neighbours in all draws is a bijection; the fibres sum to all sequences |

## What is modelled

| model file | code |
|------------|------|
| `IncrEval` | problems/eval (oneMax, QAP, UBQP, MaxSAT, NK, royal road), mo/src/problems, moFullEvalBy* |
| `Neighborhood` | mo/src/neighborhood, the indexed swap/shift neighbours, bit and partition neighbourhoods |
| `LocalSearch`, `LSParts` | moLocalSearch and explorers, memories, acceptance, cooling, continuators, VN selection, checkpoint, statistics |
| `Moeo`, `MoeoArchive`, `MoeoDepth`, `MoeoFitness`, `MoeoMetric`, `MoeoHypervolume`, `MoeoCrowding`, … | comparators, archives, dominance depth/matrix, indicator fitness, replacements, metrics, diversity of moeo |
| `EO` | EO, eoPop, tournaments, eoHowMany, evaluation loops |
| `EOReplacement` | eoReduce*, eoMerge*, eoReduceMergeReduce, eoSurviveAndDie, eoMGG/G3Replacement, eoReduceSplit |
| `EOOperators`, `EOBits` | permutation mutations and crossovers, bit-string mutations and crossovers |
| `EOBounds` | eoRealBounds/eoIntBounds folding, truncation, drawing |
| `EOSelect` | roulette wheels, proportional/SUS/sequential/elite/deterministic/truncated selection, worths |
| `EOBreed` | eoPopulator, eoGenOp, eoInvalidateOps, eoOpContainer, eoSGAGenOp, eoPropGAGenOp, eoGeneralBreeder, eoOneToOneBreeder, eoSGATransform |
| `EOVarLength` | eoVariableLengthCrossover, eoVariableLengthMutation |
| `EOAlgo` | eoEasyEA, eoSGA, eoAlgoRestart/Reset, eoContinue family (not clock, signals), eoCheckPoint, eoEvalKeepBest, eoEvalCounterThrowException, eoSelectPerc |
| `SmpTopology` | smp/src/topology, the matrix files |
| `SmpScheduler` | smp/src/scheduler.cpp (linear and progressive policy) at the granularity of the critical sections and single unlocked reads, sequentially consistent |
| `SmpIsland` | smp island.cpp, islandModel.cpp (not setTopology), sharedFitContinue.cpp, bimap.cpp add |
| `Serial` | eo/src/serial (String, Array, Object, Parser); numbers as decimal roundings |
| `Mpi` | eo/src/mpi: Job::master/worker, FinallyBlock, eoParallelApply, dynamic and static assignment; order, size and data of a task are one message |
| `EdoCMA` | edoNormalAdaptive, edoEstimatorNormalAdaptive, edoSamplerNormalAdaptive (real numbers, 32-bit counters) |
| `PSO` | PO, eoVectorParticle, star/linear/ring topologies, velocities, eoStandardFlight, eoEasyPSO, eoSyncEasyPSO, eoInitializer, eoLinearDecreasingWeightUp, eoExpDecayingBoundModifier. All particles have the same number of variables; velocity and flight are arbitrary functions where the claim does not need them |
| `ESOps` | eoRealOp.h, eoSBXcross.h, eoNormalMutation.h, eoEsMutate.h, eoEsStandardXover.h, eoEsGlobalXover.h, eoRealAtomXover.h. Draws are functions of the place; bounds are those of `EOBounds`; `exp`, `log`, `sin`, `cos` are the real functions; initialisation of individuals and of the learning rates is not modelled |
| `CMAState` | CMAParams.cpp, CMAState.cpp, eoCMABreed.h over ℝ. The eigenvalue solver (eig.cpp) is any function that, when it answers, returns orthonormal vectors that rebuild the matrix; the tests that compare floating-point sums, the history of fitness values and the exponents added for numerical reasons are parameters. Reading beyond the weights and dividing by zero are `none`; the uninitialised `ccumsig` in defaults() (overwritten when built from a parser) and minimal standard deviations are not modelled |
| `Gp` | gp/parse_tree.h, eoParseTree.h, eoParseTreeOp.h, eoParseTreeDepthInit.h, eoStParseTreeDepthInit.h, eoStParseTreeOp.h. Pointers to arguments and parents are the tree structure, a place is a path from the root; sizes, depths and cumulative sizes are stored as in the code. Memory pools (node_pool.h), `apply`, `randomize`, drawing again until an arity fits, and sizes near overflow are not modelled; a maximum depth of zero (unbounded recursion) is outside the model |
| `MoeoHv2` | archive/moeo2DMinHypervolumeArchive.h. The std::set is the sorted list of its elements; reading `end()` or an iterator without value is `none`; doubles are elements of an ordered field |
| `MoeoEpsBox` | archive/moeoEpsilonHyperboxArchive.h, utils/moeoObjectiveVectorNormalizer.h (min/max form). Objective vectors only; the comparison of distances between two members of one box is an arbitrary function; infinite factor times zero is not a number |
| `MoeoSpea2` | archive/moeoSPEA2Archive.h. `borne` is the number of members; the four uses of std::sort are functions with hypotheses; doubles are an ordered field; numbers of rows are naturals (the code stores them as double); reads beyond `copy_pop` are `none` |
| `NDSorting` | eoNDSorting.h (whole), eoPerf2Worth.h 124-237. The fitness class is not in the repository: `dominates` is a relation, components a function, `==` equality of vectors; niche_penalty is a function of the list of the front; doubles are an ordered field; std::sort is any sorted permutation |
| `Fitness` | eoDualFitness.h (whole), eoScalarFitnessAssembled.h (whole but the message and printAll), eoFeasibleRatioStat.h, eoAssembledFitnessStat.h. Text is tokens, numbers printed exactly; reading a boolean from a fraction ("0.5" leaves ".5") is simplified to a failing stream |
| `Stats` | utils/eoStat.h, eoFDCStat.h, eoPopStat.h (which individuals, not the text), eoDistance.h. Reals for doubles; division of zero by zero and roots of negative numbers are the outcome `nan` |
| `MoeoDMLS` | moeoUnifiedDominanceBasedLS, moeoPLS1/2, the four neighbourhood explorers, the two unvisited selections, moeoDMLSMonOp, moeoDMLSGenUpdater | bounded archives inside DMLS, verbose output, the generation counters of the hybrids (only their effect as stopping oracle), the by-value copy of the inner search |
| `State` | eoState.cpp/.h: tags, registration, save, load on texts | file system, the objects themselves (print and read functions are parameters) |
| `Param` | eoParser.cpp: constructor, readFrom, getValue, printOn, userNeedsHelp; eoParam.h: vector<double> values, eoParamParamType | multimap order of sections, file opening, doubles other than naturals, the help text |
| `Rng` | eo/src/utils/eoRNG.h | words are `BitVec 32`; `log`, `sqrt` of `normal` are an arbitrary function of the words; `negexp`, `choice`, roulette wheels elsewhere (C14…) |
| `BitMut` | eo/src/ga/eoStandardBitMutation.h | weights `pow(i,-beta)` of the fast mutation are arbitrary positive numbers; exact arithmetic for the cumulated shares |
| `QuadTree` | moeo/src/scalarStuffs/archive/*.h | all objectives minimised, integer values (no differences within the tolerance 1e-6); pointers become an inductive tree; memory leaks, the depth counter and debug output are not modelled |
| `Scalar` | moeoObjectiveVectorNormalizer.h, moeoAggregationFitnessAssignment.h, moeoConstraintFitnessAssignment.h, scalarStuffs/fitness, scalarStuffs/distance, moeoDistanceMetric.h | exact arithmetic in an ordered field; division by zero excluded; vectors are functions of the objective |
| `Weights` | scalarStuffs/weighting: FixedTime*, Anytime, Qexplore, AugmentedQexplore | exact rationals, unbounded integers |
| `Diversity` | moeoDistanceMatrix.h, moeoSharingDiversityAssignment.h, moeoFrontByFrontSharingDiversityAssignment.h, moeoNearestNeighborDiversityAssignment.h | exact arithmetic; the distance of two individuals is given (its `setup` is C184's subject) |
| `ILS` | moILSexplorer.h, moILS.h, accept criteria, moCountMoveMemory.h, moRestartPerturb.h, moNeighborhoodPerturb.h, moMonOpPerturb.h, moMonOpDiversification.h, moRandomSearch(Explorer).h, moBestNoImproveContinuator.h, the evaluation and time continuators, moBestSoFarStat.h, moBestImprAspiration.h | the inner local search is any function of iteration and solution; clocks and counters are given values |
| `Sampling` | moSampling.h, moVectorMonitor.h, moMinusOneCounterStat.h, moStatistics.h | exact real arithmetic; monitors of one checkpoint only |
| `FastGA` | eoFastGA, eoAlgoFoundryFastGA, eoEvalFoundryEA, eoForge, eoCellularEasyEA | selectors, operators and coins are oracles; debugging assertions not modelled; genes are exact numbers |
| `LongPath` | longKPathEval | 32-bit shifts not modelled |
| `DTLZ` | DTLZ1Eval–DTLZ7Eval, SBXCrossover, PolynomialMutation | real numbers |
| `Instances` | generators and files of nk(p,q)LandscapesEval and MaxSATeval; BBRoyalRoadEval, queenEval, moPopSolEval | files are lines of words; digits lost by printing a `double` not modelled |
| `MoeoStop` | moeoHyperVolumeDifferenceMetric, moeoHypContinue, moeoDualHypContinue, moeoDetTournamentSelect, moeoStochTournamentSelect, moeoRouletteSelect, moeoBestObjVecStat, moeoAverageObjVecStat, moeoBinaryMetricStat, moeoReferencePointIndicatorBasedFitnessAssignment | exact arithmetic; debugging assertions of moeoDualHypContinue not modelled; iterators kept by moeoBestObjVecStat stand for the individuals they pointed to |
| `MoeoEntropy` | moeoEntropyMetric | real numbers; comparator and equality of vectors are parameters; division by zero is an outcome of its own |
| `Eig` | eo/src/es/eig.cpp | real numbers; inner loops as sums and functions; the test for negligible numbers is a parameter, instantiated with the exact test and with rounding of the sum |
| `EdoAlgo` | edoAlgoAdaptive, edoAlgoStateless, edoContAdaptiveIllCovar, edoContAdaptiveFinite, edoCombinedContinue, edoTransform, edoEstimatorCombined, edoEstimatorBinomialMulti, edoSamplerBinomialMulti |
| `SymTree` | eo/contrib/mathsym sym/Sym.cpp, gen/*.cpp, eo_interface crossover, mutation, init | tokens are abstract; reference counts and the sharing of equal expressions are not modelled; draws are oracles |
| `MathSym` | eo/contrib/mathsym fun/FunDef.cpp, SymOps.cpp, sym_operations.cpp, mutate_constants | reals; a token is what it stands for; lambdas numbered by age, never freed; recursion of compress and expand_all with fuel |
| `MathSymEval` | eval/BoundsCheck.cpp, Interval.h, MultiFunction.cpp, MultiFuncs.cpp, eoSymEval.h, interval part of FunDef.cpp | intervals of reals, the interval functions of the library as parameter; -O compiled C code (sym_compile) not modelled |
| `MathSymReg` | regression/stats.h, Scaling.cpp, ErrorMeasure.cpp, TargetInfo.cpp | reals; files of data (Dataset.cpp) not modelled |
| `MathSymRaw` | FunDef.cpp: raw text, SymConst, new_lambda, free list | streams as character lists, constants by a pair of functions; reference counts as the list of unused numbers |
| `Dicho` | moeoDichoWeightStrategy, moeoRandWeightStrategy, moeoDummyWeightStrategy | two objectives, exact numbers; `std::sort` keeps its contract; an iterator is a place, `none` once the vector may have moved |
| `Factory` | eo/src/do/make_algo_scalar.h, make_algo_easea.h, make_general_replacement.h, make_continue.h, make_pop.h, eo/src/ga/make_op.h, eo/src/es/make_op.h, moeo/src/do/make_ea_moeo.h (niche size), eo/src/eoCtrlCContinue.h | `atof` arbitrary, `atoi` without overflow; parameters given by value (the parser is in Param.lean); bounds parameter of es/make_op.h, the other presets of make_ea_moeo.h and G3/MGG of easea not modelled |
| `Persist` | eo/src/EO.h, eoVector.h, ga/eoBit.h, eoPop.h, es/eoEs*.h, eoDualFitness.h, PO.h, eoVectorParticle.h, other/eoString.h, contrib/MGE/eoVirus.h, contrib/eoAged.h, moeo/src/core/MOEO.h, moeoVector.h, moeoBitVector.h, moeoRealObjectiveVector.h, mo/src/problems/partition/moBinaryPartition.h, eo/src/utils/eoHowMany.h (printOn, readFrom) | a stream is the text left and whether it is good; how single values are written and read is an oracle (`Fmt`), assumed only to restore the value from its one word; precision loss of decimal printing is outside the model |
| `BoundText` | eo/src/utils/eoRealBounds.cpp, eoIntBounds.cpp, eoRealVectorBounds.h, eoRealBounds.h | text is a list of characters; the format of a real number is an oracle with the property that a printed number is read back; the memory needed for 2^32 bounds is not modelled |
| `RealToInt` | eo/src/eoRealToIntMonOp.h, eoRealToIntQuadOp.h, eoRealToIntInit.h | the real operator is any function; reals are an ordered field, so that rounding is exact; the conversion to int is unbounded |
| `VirusOps` | eo/contrib/MGE/VirusOp.h, eoInitVirus.h, eoVirus.h | random draws as arguments |
| `ESCommand` | es/make_genotype_real.h, es/eoEsChromInit.h, es/make_op_es.h, es/eoEsMutationInit.h, es/eoEsMutate.h (rates), utils/eoParam.h, utils/eoRealVectorBounds.h (copying) | numbers rational, the reader of numbers arbitrary; the learning rates over the reals |
| `FlipNeighborhood` | mo: moBitFlipNeighborhood.h, moNeighborBestStat.h, moNeighborFitnessStat.h | coins as a function of the position; fitness values in a linear order |
| `Fuzzy` | moeo: moeoFuzzyParetoComparator.h, moeoBertDistance.h, moeoExpectedFuzzyDistance.h, moeoFuzzyRealObjectiveVector.h | `std::triple` is taken to be three numbers (the class does not exist, so the headers do not compile as they are); exact arithmetic; normaliser, archive and diversities not modelled |
| `IntervalLib` | eo/contrib/boost/numeric/interval: interval.hpp, checking.hpp, detail/test_input.hpp, arith.hpp, detail/division.hpp, arith2.hpp, utility.hpp, compare/explicit.hpp, rounded_arith.hpp; eo/contrib/mathsym/eval/Interval.h | a number of an ordered field, an infinity or not a number; zeros have no sign; operations are exact and then rounded by an arbitrary function; checking_base |
| `IntervalTransc` | eo/contrib/boost/numeric/interval: transc.hpp, constants.hpp, rounded_transc.hpp | over the reals; the functions of the C library are arguments with a rounding down and up; cosine, sine and tangent in exact arithmetic |
| `MultiStart` | eo/src/mpi/eoMultiStart.h, implMpi.h, implMpi.cpp | messages of one worker arrive in order; ranks of waits (probe) as any order; contents of new memory arbitrary |
| `Monitors` | eo/src/utils/eoFileMonitor.{h,cpp}, eoOStreamMonitor.{h,cpp}, eoFileSnapshot.h, eoTimedMonitor.h, eoTimeCounter.h, eoTimer.h, eoLogger.{h,cpp}, eoSignal.h, eo/src/eoSIGContinue.{h,cpp}, mo/src/continuator/moCounterMonitorSaver.h, moValueParamContinuator.h, moBestFitnessStat.h, moeo/src/utils/moeoBinaryMetricSavingUpdater.h, moeoArchiveObjectiveVectorSavingUpdater.h | values are texts; files that cannot be opened only for the logger; clock in microseconds; signals between calls only; buffer of 1000 characters of the archive saver not modelled |
| `MasterWorker` | smp/src/MWModel.{h,cpp}, smp/src/MWAlgo/eoEasyEA.cpp, eoEasyPSO.cpp, eoSyncEasyPSO.cpp, constructors of eoEasyEA.h and eoSyncEasyPSO.h | evaluators have no state shared by threads; exceptions in threads not modelled |
| `ExternalEval` | eo/src/eoEvalCmd.h, eoEvalNamedPipe.h, eoEvalDump.h, eo/src/utils/pipecom.cpp | shell, programs and disk are arguments; conversions of numbers are arguments; of the formats only %%, %d, %i, %u; processes do not die |
| `FoundryEA` | eo/src/eoAlgoFoundry.h, eoAlgoFoundryEA.h | objects are numbers; what they do are arguments; name() not modelled |
| `Ibea` | moeoIBEA.h, moeoExpBinaryIndicatorBasedFitnessAssignment.h with the additive epsilon and hypervolume metrics, moeoEnvironmentalReplacement.h; moeoMOGA.h, moeoDominanceRankFitnessAssignment.h; moeoNSGA.h is `NCfg` of `MoeoEA` with another diversity | reals instead of doubles; variation, evaluation and criterion are given functions; the sharing of MOGA and `std::sort` are given (the sort with its specification) |
| `MakeCheckpoint` | make_checkpoint.h, make_checkpoint_FDC.h, make_checkpoint_assembled.h, make_checkpoint_moeo.h; the order of a call in eoCheckPoint.h and eoSignal.h; testDirRes of make_help.cpp | statistics are given functions of the generation; monitors are lists of columns (text in `Monitors`); options are already parsed; ownership, gnuplot windows and characters special to the shell are left out |
| `Exceptions` | eo/src/eoExceptions.h (whole), mpi/eoMpi.h 735-740. Texts have no null character. |
| `AlgoCtors` | mo/src/algo/moSA.h 63-123, moTS.h 65-144: which parts the short constructors put together. |
| `ContinueMoeo` | moeo/src/do/make_continue_moeo.h, eo/src/eoTimeContinue.h. The clock is any function of the call. |
| `MetricFitness` | moeo/src/scalarStuffs/fitness/moeoMetricFitnessAssignment.h. Doubles are rationals with one infinity (1/0). |
| `FunctorStore` | eo/src/eoFunctorStore.h, eoFunctorStore.cpp. Destructors of functors do nothing to the store. |
| `EdoMonitor` | edo/src/utils/edoCheckPoint.h (not allClassNames), edoFileSnapshot.h, edoFileSnapshot.cpp. The shell and opening files succeed. |
| `DualHv` | moeo/src/metric/moeoDualHyperVolumeDifferenceMetric.h in a build with assertions. |
| `Irace` | eo/contrib/irace/fastga.cpp 126-170, 395-400; the benchmark itself (IOH) is not modelled. |
| `Distance` | moeoManhattanDistance, moeoEuclideanDistance: values and what they refer to |
| `WalkSampling` | moVectorMonitor, the table of moSampling, moAdaptiveWalkSampling, moHillClimberSampling, moNeighborhoodStat for minimised fitness |
| `EvalThrow` | eoEvalNanThrowException, eoEvalUserTimeThrowException (Unix version), eoEvalFuncCounter, eoEvalContinue, `apply` in order; finite-ness, clock and evaluation function are oracles; OpenMP left out; on Windows the time evaluator compares 100-nanosecond units and calls `func` without `this->` |
| `SelectMore` | eoNoSelect, eoBestSelect, eoTruncSelect, constructor of eoStochTournamentSelect; rates rational; `unsigned current` does not overflow since it is at most the size |
| `EqualComparators` | moEqualNeighborComparator, moEqualSolNeighborComparator in moSimpleHCexplorer and moFirstImprHCexplorer; as `LocalSearch` |
| `CloudSampling` | moNeutralWalkSampling (with distance), the four fitness cloud samplings, moMetropolisHastingExplorer, moDistanceStat; rational fitness; the neighbours seen by the statistics are an oracle, the enumeration need not be that of the walk; standard deviation given by its square |
| `FlowShop` | moeo/tutorial/examples/flowshop: evaluation, crossover, benchmark parser; 32-bit conversions in the tardiness only; initialisation, mutations and the programs are left out (the mutations are those of permutations, C56) |
| `Mastermind` | eo/app/mastermind: evaluator, check of the parameters, initialiser, mutation, crossover; the fitness is a natural number instead of a float |
| `QapTutorial` | smp/tutorial/Lesson1: problem, copy and assignment, initialiser, evaluation, crossover, mutation; the island program and the reading of instances are left out |
| `Mlp` | eo/app/gprop: mlp.h evaluation, qp.h and mse.h training; number type arbitrary; perturb, normalize, desaturate, load and save are left out; samples of matching sizes |
| `MpiSession` | eoParallelPopLoopEval with its ParallelApply jobs (MultiJob), the queues of orders of the workers from job to job, EmptyJob and the destructor; dynamic and static assignment with reinit. Not: time measuring, exceptions, the MPI library, sizes from 2^53 on |
| `MlpNet` | mlp.h: init, sizes, length, save/load of nets and sets, normalize, desaturate, perturb, euclidean_distance; gprop.h: phenotype, correct, mutation and crossover. Not: reset (normal draws), winner, YAML, gprop.cpp (reads sets by an operator that does not exist) |
| `GpSymreg` | eo/app/gpsymreg node.h and fitness.h: trees over the nodes of `init`, their value and text, the error and the best formula; the `float` counter of the loop is exact, `double` operations are parameters |
| `OpAdapters` | eoOp.h adapters, eoExternalEO and its operators, eoSimpleEDA; operators are functions of individuals and the state of the random numbers; `apply` in sequence (no OpenMP) |
| `Gnuplot` | pipecom.cpp PipeComSend, eoGnuplot, eoGnuplot1DMonitor, eoGnuplot1DSnapshot with HAVE_GNUPLOT; gnuplot is the text it received and always running; conversions with flags, widths or `%c` count as undefined |
| `SymCompile` | mathsym c_print and sym_compile.cpp: texts as lists of glyphs (numbers, x[i], variables, function names are one glyph); comments and the grammar of C expressions; the table of find_entry and find_code; running the lines. Not modelled: prototypes and heads of functions, tcc itself, infinities and NaN as constants |
| `SharedPtr` | mathsym shared_ptr.h: variables, counters, objects, programs. Simplified: addresses are not used again, objects hold no counted pointers |
| `SymDag` | eo/contrib/mathsym/sym/Sym.h, Sym.cpp (constructors), SymImpl.cpp: nodes with key, count, size, depth; incref, decref with erasing of arguments in turn, constructors, copy, assignment, assignment of an argument, destructor; undefined behaviour when a node is gone; hashing, `factory`, wrap-around of counters not modelled |
| `Symreg` | eo/contrib/mathsym/symreg.cpp: setup_language, add_function, the start of main, AverageSizeStat, SumSizeStat, DagSizeStat; printing and the reading of the data file are left out, the parser is the set of options given |
| `Dataset` | eo/contrib/mathsym/regression/Dataset.cpp: load_data, read_data, input_minima, input_maxima; how `>>` reads a number is an argument |
| `IntervalCmp` | eo/contrib/boost/numeric/interval: compare/certain.hpp, possible.hpp, tribool.hpp, lexicographic.hpp, set.hpp, arith3.hpp |
| `DegreeSampling` | mo/src/sampling: moFDCsampling.h, moNeutralDegreeSampling.h on top of `Sampling`, `WalkSampling` |
| `SmpShared` | smp/src/islandModelWrapper.h with the criteria shared by the islands: eoGenContinue, eoPeriodicContinue; loop of eoEasyEA |
| `StatReaders` | mo/src/continuator/moCheckpoint.h (statistics), the readers of moNeighborhoodStat, moStatFromStat.h; a statistic on the neighbourhood is a function of the solution (with at least one neighbour) |
| FitTarget | continuator/moFitContinuator.h; fitness is a total order, larger is better |
* `Model/Init.lean`: eoInit.h, eoCombinedInit.h, eoProportionalCombinedOp.h, eoFlOrMonOp.h, eoCounter.h, eoUpdater.cpp, rnd_generators.h, eoUniformInit.h, es/eoEsChromInit.h, es/eoRealInitBounded.h.
* `Model/Worth.lean`: eoRankingCached.h, eoSelectFromWorth.h, utils/selectors.h (`minimizing_fitness`). Fitness types are described by what the templates test.
* `Model/Velocity.lean`: eoIntegerVelocity.h, eoExtendedVelocity.h, eoVelocityInit.h, eoSigBinaryFlight.h. For slope 0 the arithmetic of IEEE doubles (infinities) is assumed.
| `Model/MoeoEA.lean` | moeoNSGAII, moeoSEEA, moeoASEEA, moeoEasyEA, moeoDetArchiveSelect, moeoSelectFromPopAndArch (ratio 0) | breeding and evaluation are oracles; fitness is Nat; ranks by the procedure for more than two objectives |
| `EdoCholesky`, `EdoRepair`, `EdoEstim` | edo: Cholesky, bounders, repairers, estimators and samplers (uniform, binomial, normal), edoEDASA inner loop; symmetric matrices are functions of two indices |

Not modelled: parallel modules (smp, mpi) except where listed above, file formats and parsers except
where listed, wall-clock time, floating point rounding.

## Disagreements between code and documented intention

Each item marked with theorem names is proved; the others are only observed.

Evaluation and neighbourhoods
* Incremental MaxSAT loses literal signs (C05_maxsat_file_wrong, C05_maxsat_random_wrong).
* Royal road: incremental evaluation of a trailing incomplete block reads past the end (C07_royal_trailing_out_of_range).
* NK: the incremental evaluation is exact only for distinct links (C06).
* moOrderNeighborhood::cont for size 0 wraps around (C09_order_empty); sampling with replacement with its default bound never ends (C11_repl_unbounded).
* Indexed swap keys overflow 32 bits (C13_overflow); shift neighbourhood with (n-1)² keys misses insertions (C14_square_misses).
* moBitsWithReplNeighborhood's variable distance loop is inverted (C64_choose_distance_wrong); binary partition hasNeighbor ignores an empty selection (C62_partition_has_wrong).

Local search
* Tabu search does not record a better solution made by the diversification (C21_diversification_not_recorded); effective tenure is one less (C23_effective_tenure); tabu check out of range (C23_key_too_large); ring lists of size 0 divide by zero (C24).
* Metropolis acceptance at zero and negative fitness (C65_metropolis_zero, C65_metropolis_negative).
* moCheckpoint advances its counter inside the loop over the statistics (C66_two_stats_wrong).
* Forward variable neighbourhood selection with one operator never stops (C28_single_never_stops); VNS never restarts (C29_restart_wrong).
* Iteration bounds 0 and 1 mean the same (C27_iterations).

Multi-objective
* Pareto comparison with tolerance is not transitive; strict comparison at the tolerance; g-dominance (C31, C32 and their witnesses). Archives with tolerance drift; FitDivBoundedArchive keeps the worst (C33–C37 witnesses).
* Dominance depth for two objectives with duplicates or mixed directions; updateByDeleting; DominanceMatrix copySet never cleared (C38–C40, C71 witnesses).
* Multiplicative epsilon is reversed for negative values, contribution counts common points twice, one-objective hypervolume is squared, negative maxima (C43–C46 witnesses); plain crowding divides 0 by 0.
* The epsilon comparator tightens for minimised objectives (C81); archive equality with tolerance is not transitive (C82).

Evolving objects
* eoElitism copies all parents; weak elitism of one in reduce-merge-reduce never saves anybody (C75); EP and stochastic reducers may lose the best (C73).
* Inverse deterministic tournament on a single individual never returns; tournament size 0 means 2^32 draws; `unsigned < 0` checks in splits never fire; a tournament split of everything never ends (C80).
* G3 replacement with rates throws (C78); the complement of a rate sums to n+1 (C55).
* Order crossover moves the kept segment to the front and is wrong where `char` is unsigned; shift, swap, two-opt never end for sizes below two; n-point crossover never ends for size 1; uniform crossover builds but does not throw its exception; gene crossover with gene size 0; eoDetBitFlip may cancel flips (C56–C60 witnesses).
* Folding replaces values beyond 1e9 by random ones even inside the bounds (C61_fold_inside_moved); degenerate intervals divide by zero (C61_fold_degenerate); eoIntInterval::random never gives the maximum (C61_random_integer).
* eoRng::roulette_wheel past the end when everything is zero or the total is too large (C54_rng_wheel_beyond); a draw of 0 may pick a zero weight (C54_wheel_zero).
* Proportional selection uses the weights of the last setup (C83_stale) and returns the last of an all-zero population (C83_all_zero); SUS on a border (C84_border) and all-zero (C84_all_zero).
* eoEliteSelect returns `pop[0]`, not the best (C86_not_best).
* Truncated selection of more than there are offers default individuals (C88_default_individuals).
* Linear ranking exceeds its documented range and does not sum to one (C90_linear_exceeds_range), overflows at 65537 individuals (C90_overflow). Linear scaling of equal fitnesses divides by zero (C91_all_equal).
* A sequence in which no operator fires produces nothing; with all rates zero the breeder never returns (C94_sequential_never_returns); a proportional choice with all rates zero reads past the end (C94_proportional).
* Two crossovers in a sequence may produce more than `max_production`, the vector is reallocated under a held reference (C95_two_crossovers_overrun); a proportional choice in a sequence skips every second individual (C95_nested_choice_skips).
* The one-to-one breeder can never succeed with a container as operator (C96_containers_never_succeed).
* Weak elitism in reduce-merge-reduce never considers the last of the elite (C75_weak_saves).
* Variable-length uniform crossovers do not empty their temporaries between tries, so atoms are duplicated (C98_uniform_duplicates); the one-parent variant returns false although it replaced the genes (C98_bin_untruthful), which leaves a stale fitness; a success at the 10000th try counts as failure (C98_atom_exchange).
* eoEasyEA always does at least one generation; generation limits 0 and 1 mean the same (C100_plus_ga). eoSteadyFitContinue stops after one generation more than announced (C101_steady) and its constructor with a current generation leaves members unset (C101_steady_uninitialised). Stopping by evaluations may never happen (C101_evaluations_endless); eoPeriodicContinue with period 0 (C101_periodic).
* eoEvalKeepBest::found() is false for the first individual (C103_keep_best).

Parallel islands and schedulers
* The mesh on 0, 1 or a prime number of islands reads past the end of the divisors (C107_mesh_sizes). In the star only the centre receives (C106_star, C108_star), where the comment in star.h says otherwise. A ring of one island sends to itself (C106_ring); a hypercube of 0 islands is undefined (C106_hypercubic). A topology file whose first line is empty is refused (C110_load).
* The linear scheduler without workers divides by zero (C111_no_workers), the progressive one never returns (C112_no_workers); the latter reads the workers' indices without their mutex (C112_unlocked_reads); with at least one worker it can always still return (C112_can_return), for fewer than 2^32 - 1 individuals because the doubling package size wraps to 0.
* Emigrants the model takes from its queue after having noticed the end of their island are lost, so the "last integration" forwards nothing (C113_lost).
* SharedFitContinue is inverted (C115_inverted, C115_at_most_one_generation).
* Observed only: IslandModel::setTopology assigns through a reference to an abstract base, so the new topology is ignored; Bimap::removeFromRight/Left do not compile when instantiated.

Serialization and distributed jobs
* Strings with unescaped quotes or a trailing backslash do not survive (C117_string_iff); unquoted array content loops for ever (C118_never_returns); unquoted object values read outside the text (C118_unquoted_value); sixteen digits lose doubles (C119_number_lost). Observed only: packing of containers uses a missing iterator type and does not compile when instantiated.
* Static assignment with too few announced runs never ends (C121_static_short, C121_deadlock); rank 0 cannot be a worker (C121_rank_zero), although the default constructors take ranks 1.. whatever the master's rank. Observed only: StaticAssignmentAlgorithm::init writes to reserved memory of an empty vector, and divides by zero without workers.

Estimation of distributions
* LLT/LDLT fail for semidefinite matrices with a singular leading block (C123_llt_iff); "zero" and "abs" fail on a negative first entry (C124_first), "zero" on any nonpositive pivot but the last (C124_zero_iff).
* Bounders keep the fitness of the point they move (C125_stale_fitness); a bounder with its own generator may leave points outside (C125_rng_outside); modulo keeps the sign (C126_modulo_negative).
* The "covariance matrix" is not centred (C131_uncentred, C132_inflation); too few individuals make sampling fail (C131_too_few).
* CMA-ES learning rates are not limited: with many individuals they exceed one together and the matrix can become negative definite (C136_rates_exceed_one, C136_breaks_down); the constant for the expected norm suffers from an integer division, which biases the step size downwards (C137_step_size_bias).
* edoEDASA accepts everything: the exponent lacks its minus sign (C133_always_accepts).
* Observed only: edoUniformCenter, edoNormalMonoCenter and edoNormalMultiCenter assign to temporaries; edoTransformAdaptive empties the population; edoEstimatorCombinedStateless uses a deleted object; one constructor of edoNormalAdaptive leaves the dimension unset.

Particle swarms
* The ring topology never informs anybody for neighbourhoods of two or more (C141_ring_never_learns), and the wrong neighbourhood for one (C141_ring_of_one): `for (unsigned i=-neighborhoodSize+1; ...)` starts at a huge number, and the index is taken modulo the number of variables.
* Random numbers are drawn once per particle, not per variable, so the swarm never leaves the affine hull of its start (C143_confined).
* The decreasing weight wraps after its last generation (C144_wraps); the decaying bound decays once per call, not as documented (C145_run).
* Observed only: eoStarTopology declares globalBest(const eoPop&), which does not override the pure virtual globalBest(), so it cannot be instantiated; eoParticleFullInitializer has mismatched names; the velocities keep references to their coefficients (dangling for literals); the modifier of the bounds is ignored by the standard, integer and extended velocities; PO::best() tests the wrong flag.

Real vectors and evolution strategies
* The constructors that scale by the width of the bounds multiply by epsilon (or sigma) twice (C146_scaled_twice); eoDetUniformMutation without bounds assigns instead of adding (C146_det_free_replaces).
* eoRealUXover builds an exception for different sizes without throwing it (C147_uniform_sizes).
* eoNormalVecMutation without bounds holds a vector of ⌊sigma⌋ zeros (C148_vector_free); the one-fifth rule shrinks the step size when nothing was mutated, 0/0 being no number (C148_one_fifth_idle).
* The correlated mutation misses one rotation per variable: the first variable is never rotated and n-1 angles are unused (C149_first_never_rotated, C149_angles_unused); angles are reduced modulo π (C149_angle_negated).

CMA-ES
* `weights` keeps the size of the default number of parents: read out of range for more parents, not normalised or negative for fewer (C151_more_parents, C151_fewer_parents, C151_negative_weight); schemes 1 and 2 are the reverse of their description (C151_schemes_swapped).
* The correction `(1-hsig)*ccumcov*(2-ccumcov)*C` lacks the factor `ccov/mucov` of the rule quoted below it, and generation 0 always takes it (C153_first_generation_grows, C153_parents_at_mean).
* Observed only: CMAParams::defaults multiplies the uninitialised member `ccumsig`; when ten tries find no eigensystem eoCMABreed prints a message and samples with what the solver left; the remembered eigenvalue is static, shared by all instances.

### Genetic programming

* `operator=(const subtree&)` returns before `updateAfterInsert` when the source is in the same tree, so the documented `tree[2] = tree[0]` leaves size 5 for three nodes (C154_same_tree, C154_documented_example) and the tree prints unreadably (C155_same_tree_unreadable).
* A node of another arity brings default arguments of depth 0: the depth is one too small until something else updates it (C154_other_arity).
* A default-constructed tree has size 1, so it is not empty and pushing into it leaves a spurious node (C155_push_fresh); a sequence with too many nodes is accepted, its beginning ignored (C155_sequence).
* Node sets without terminals or functions are not rejected (C157_no_terminal, C157_full_no_function); typed: C158_missing_type.
* eoStPointMutation ignores the types of arguments (C158_point_ill_typed); eoStSubtreeXOver ignores its maximum size (C158_crossover_no_limit).
* Observed only: eoStParseTreeOp.h includes the non-standard <map.h>; `get_cumulative` calls a function that does not exist, its const version calls itself; `eoInitRampedHalfAndHalf` divides by zero for depth 1.

### Archives

* moeo2DMinHypervolumeArchive: a full archive offered a vector just before its last member dereferences `end()` (C159_before_last_undefined); when all inner areas reach the maximal value 100 the member to drop is an uninitialised iterator (C159_large_areas_undefined).
* moeoEpsilonHyperboxArchive refuses vectors worse than nadir in one objective even if nobody dominates them (C160_refuses_nondominated, three objectives), answers true without inserting (C160_true_without_insertion), keeps dominated members when an objective is constant (C160_constant_objective) and keeps copies (C160_duplicates).
* moeoSPEA2Archive reads `copy_pop[j]` before testing `j`: undefined for an empty population or one that is used up (C161_empty_undefined, C161_single_undefined); the replacement loop overwrites member `i` with the last member, so the best member survives even if dominated (C161_best_stays, C161_dominated_kept). `matrice.erase(matrice_it)` reuses an iterator that erase invalidates (observed only).
* Observed only: its `operator()(pop)` returns an uninitialised variable for an empty population; the distance that chooses between members of one box mixes raw objectives with box indices.

* eoNDSorting_II gives a front of one individual the penalty -m (m objectives), which after the division by 1 - m becomes m/(m-1) > 1: the individual is ranked behind the next front (C162_singleton_front, C162_best_is_worst). The comment in the base class (“to ensure that this front does not overlap with the next”) does not hold there.
* eoNDSorting's sorter compares differences with `< tol`: with tolerance 0 ties on the first objective would not be broken, so the theorems ask for a positive tolerance and values on a grid.
* eoPerf2WorthCached keeps the worths of the larger population after a truncation through `resize` (C163_stale).
* eoNoPerf2Worth (eoPerf2Worth.h:245-259) names `eoValueParam<EOT>::value` and assigns an individual to a fitness: it cannot be instantiated as written; not modelled. eoNDSorting declares two default constructors.

### Fitness classes and statistics

* eoDualFitness: `operator+`, `-`, `/` with a scalar modify their left operand (C164_scalar_modifies); `+=`, `-=`, `/=` copy the mark `_feasible_init` of the right operand instead of combining both (C164_init_overwritten); eoAverageStat of dual fitnesses goes through a double and loses feasibility (C164_average); the text "v ?" cannot be read back (C164_unread).
* eoScalarFitnessAssembledTraits::setDescription resizes to `_idx` and then writes at `_idx`: out of bounds whenever the name does not exist yet (C165_describe, C165_push). A fitness without terms breaks the strict weak order (C165_empty_term). Only the first individual is checked for the term of a statistic (C165_average_range).
* eoNthElementFitnessStat tests `whichElement > size` (C166_nth_best_range). eoNthElementStat asserts before it tests for an empty population and accepts the ratio 1 (C166_nth_ratio). eoInterquartileRangeStat is negative when minimising (C166_range_minimise). eoPopStat and eoSortedPopStat do not limit the number of individuals (C166_dump).
* eoDistanceStat subtracts unsigned genes (C168_unsigned) and, like the distances, does not compare sizes (C168_sizes, C168_diversity_sizes).

### C169/C170 — dominance-based local search

* None of the explorers marks a source without neighbours, so the natural stop is never reached while such a member stays in the archive (`C170_isolated_solution`).
* `moeoSimpleSubNeighborhoodExplorer` marks a source only when its whole neighbourhood fits in `number` (`C170_sub_never_marks`).
* The archive's default `replace = true` makes equal-vector neighbours replace each other as unvisited members for ever (`C170_replace_cycles`); with `replace = false` the search is proved to end.
* `moeoNoDesimprovingNeighborhoodExplorer` restarts the neighbourhood at every visit; with a fixed order it finds the same non-dominated neighbour again and never marks the source (`C170_no_desimproving_livelock`).
* The mark is reset by nothing outside the explorers (`MOEO::invalidate` keeps it): offspring of marked parents are not explored (`C170_stale_marks`).
* `moeoDMLSMonOp` returns false although it replaced the individual, and does not clear its archive between calls (`C170_mutation`, `C170_mutation_reuses_archive`).

### Multi-objective evolutionary algorithms

* `moeoSEEA::operator()` calls `genBreed` whatever the constructor, so the two constructors taking an `eoTransform` never use it: offspring are copies of archive members (`C172_transform_ignored`). The population is never replaced, so a stopping criterion on the population never sees a change (`C172_seea`).
* `moeoASEEA` resizes the user's population to zero each generation: after the run only the archive holds results, and stopping criteria that look at the population (best element) work on an empty population (`C172_aseea`).
* `moeoDetArchiveSelect` with `min > 0` on an empty archive computes `i % 0` (`C172_archive_select`).
* NSGA-II has no archive: with more non-dominated vectors than places the population can end up dominated by forgotten vectors (`C171_forgets`).
* Read, not modelled: the constructors of `moeoSPEA2` taking crossover and mutation select parents with `defaultSelect` (population only), those taking an `eoGenOp` select from the archive only (ratio 0.0).

### Persistence and parameters

* `eoState::load` never restores anything: the closing tag it looks for in a line (`"}\n"`, in JSON `"\":\n"`) ends with a newline that `getline` has removed, so no line is ever a section (`C173_load_restores_nothing`). Checkpointed runs restart from fresh objects, silently. With the tag `}` everything saved comes back (`C173_one_character`).
* The JSON written by `eoState::save` with two objects or more is not JSON (the second object has no key structure around it, contents are not escaped): observed, not modelled. With a state name the first section header would be misread (`substr` takes `end - so.size()` characters): observed.
* `eoParser::getValue` looks at short names first whatever the order: `-P=10` in the parameter file wins over `--popSize=20` on the command line although the command line is read last to override the file (`C174_file_wins`).
* The constructor joins arguments with newlines and `readFrom` splits at white space: `--name="a b"` is cut after `a` (`C174_blank`); parameter files written by the program itself lose everything after the first blank of a value (`C174_print_read_blanks`), so vector parameters cannot be given nor restored.
* `-f` for a flag stores the empty text (the comment in the code says `"1"`); a string parameter cannot be set to the empty text (`is >> repValue` fails): observed.
* `eoValueParam<std::vector<double>>::setValue` swallows a character before each element (the do-while reads the first non-delimiter and drops it), so `2 10 20` is read as (0, 0) (`C175_vector_first`, `C175_vector_not_restored`, `C175_vector_one_digit`).
* `eoParamParamType::readFrom`: missing parenthesis loops for ever, growing the argument list (`C175_keyword_unclosed`); `substr(pos, posEnd)` takes a length for an end position: `K(a, b)` gives the argument `b)` (`C175_keyword_blank`).

### Random numbers and bit mutations

* The seed is shifted/masked so that its highest bit has no effect: `s` and `s + 2^31` give the same run (`C176_same`).
* `eoRng::powerlaw` draws `uniform(min,max)` where the inverse-transform needs `uniform(0,1)` (`C177_powerlaw`).
* `reseed` keeps the cached normal deviate (`C178_reseed_stale`): two runs with the same seed may differ if something drew a normal number before; `clearCache` exists for that. `printOn` writes the cached value with 6 digits (`C178_restored_cached`).
* Read, not modelled: `next` is null before the first `rand()`, `printOn` then prints an unspecified number (harmless since `left` is 0); `negexp` is infinite for a zero word; `uniform(min,max)` in double precision can round to `max`; `choice` of an empty vector reads `vec[0]`.
* `eoStandardBitMutation` without rate fixes 1/n of the first string it mutates (`C179_rate_kept`).
* `eoUniformBitMutation` documents U(0,n) but never flips all n bits and may flip none (`C179_uniform`); `eoNormalBitMutation` converts negative deviates to unsigned (`C179_normal`); `eoConditionalBitMutation` loops for ever with a negative rate (`C179_conditional_endless`). `eoBucketBitMutation` uses the C function `rand()` instead of `eo::rng`: runs are not reproducible from the seed (observed).

### Quad tree and indexed archives (C180–C183)

* `remove` ends both loops before slot `bound - 1`: with three or more objectives the subtree there is lost (`C180_lost`; `C180_exact` proves that the loops up to `bound` would be right).
* The quad tree gives a new node the index `size() - 1`, the archive stores it at `size()`: `C181_wrong_one`. `find_node` looks into the slot `k_succ(current, obj)` though nodes are stored in the slot `k_succ(obj, current)`: `C181_update_only_root`.
* `apply_modif` calls `update` for the last element of the archive also if that is the element being removed, which puts it back into the sorted index: `C183_stale`, `C183_lost`, `C183_outside`.
* The flag `_insert` is ignored by the quad tree. moeoQuadTreeArchive inserts nothing; its version for populations returns an uninitialised flag (`C181_quadtree_archive` covers the single version). QuadTreeNode's assignment assigns `subTree` to itself; removed nodes are never freed; the sorted index writes to std::cout (observed, not modelled).

### Scalarisation and weights (C184–C188)

* `update_by_bounds` rebuilds the scale with the default maximum 100 instead of `max` (C184_update_bounds).
* moeoAchievementFitnessAssignment treats each objective as minimised (C185_achievement_direction).
* The 'Chebychev' distance with an exponent takes the root of each term instead of the sum: it is a weighted sum of absolute differences (C185_cheb_is_manhattan).
* moeoAchievementScalarizingFunctionMetricFitnessAssignment: the constructor with a normaliser but no evaluation function drops the normaliser (C185_normaliser_ignored); `rho` of the distance is unused.
* Fixed time in both directions flips one call too early and so jumps (C186_both_jump). The one-direction strategy gives (0, 1) only once.
* The anytime strategy never tries weights below 1/8 or above 3/4 except the ends, and repeats itself (C187_anytime). Its bounds `old1`, `old2` are those of the last call, not of the interval halved.
* The augmented exploring strategy never proposes the ends or the middle, and loops for ever with one objective (C188_never, C188_single).
* Observed only: moeoVFAS (third constructor ignores the weight strategy). The Anytime, Dicho, Qexplore and Rand strategies have a member `UF_random_generator<double> default_random` without default constructor, so their constructors do not compile when instantiated; the model takes their logic as written.

### Diversity (C189–C190)

* Sharing and the distance matrix write cell (0,0) of an empty matrix for an empty population; nearest neighbour reads the end of an empty list for a single individual.
* Sharing compares with a comparator that reads the fitness when two diversities are equal: before any fitness is assigned this throws (not modelled).
* Front by front subtracts from the greatest count over all fronts, not over the front of the individual.

### Iterated local search, budgets and sampling (C192–C204)

* `moILS` accepts every candidate by default and returns the last local optimum, possibly worse than its start (`C192_default_may_worsen`). `moBestSoFarStat` or `moBetterAcceptCrit` is needed.
* `moCountMoveMemory::update` also counts iterations with a move, so `getNbNoMove` is the number of iterations (`C193_no_move_wrong`) and the counter is 1 right after a move: restart threshold 1 always restarts (`C193_threshold_one`).
* `moNeighborhoodPerturb::add` initialises the position and `operator()` moves on before applying: the first neighbour is skipped after every move (`C194_always_second`).
* `moMonOpPerturb` never draws its maximum (`C195_times`); swapped limits wrap around (`C195_times_swapped`). `moMonOpDiversification` does not invalidate: stale fitness with the counting evaluator (`C195_diversify_stale`).
* `moBestNoImproveContinuator` compares with a best that is normally already updated: an iteration counter (`C196_checkpoint`).
* The evaluation continuators keep the start in 32 bits (`C197_overflow`).
* `moBestSoFarStat` without reinitialisation ignores the starts of later runs (`C198_start_lost`).
* `moRandomSearch` returns its last draw (`C199_not_best`).
* `moStatistics::autocorrelation` with `nbS = 0` writes outside its vectors, with `nbS >= n` divides by zero (`C203_autocorrelation`); partial autocorrelations outside [-1, 1] (`C204_out_of_range`).
* moFDCsampling, moDensityOfStatesSampling and moAutocorrelationSampling only choose a local search and statistics for `moSampling` (C201); the others are C330, C335 and C336.

### Assembled algorithms, forges and cells (C205–C208)

* The evaluation limit discards the generation in which it is reached, also when it is reached by its last evaluation (`C205_last_lost`). The evaluation of the initial population is not counted.
* `eoFastGA` overwrites its number of offspring with the size of the first population (`C205_offspring_size`).
* `eoEvalFoundryEA` rounds up: the first operator is practically never chosen, the last unit of the range penalised (`C206_bias`).
* `eoForgeOperator::instantiate_ptr` tests the object of `instantiate`, and makes an empty `std::shared_ptr` for operators without arguments (`C207_shared`).
* Observed only: `eoEvalFoundryFastGA` uses members its foundry does not have and does not compile when instantiated; `eoForgeMap::setup` deletes a forge that `emplace` then does not replace; `eoEvalTimeThrowException` and `eoEvalUserTimeThrowException` never count; `eoCellularEasyEA` does not evaluate its initial population, and its constructor with an eoBinOp binds a reference to a temporary.

### Test problems (C209–C216)

* NK, NKp and NKq `load` test the word "NK…" where they should test the next one for 'p', so they throw for every file; files with only comments are read without end (C213).
* nkqLandscapesEval with q = 1 fills its tables with 0/0 (C212).
* MaxSATeval reads a file that ends within a clause without end, and takes missing clauses as empty ones (C215).
* SBXCrossover made without bounds throws as soon as the parents differ; PolynomialMutation reports a change for genes on a bound, which never move (C211).
* The DTLZ evaluations and LongKPathEval read outside of solutions of the wrong size (C209, C210); only part of the converse for DTLZ5–DTLZ7 (which solutions are optimal) is claimed.

### Initialisers, worths and velocities (C217–C228)

`eoInitVariableLength` never makes the maximal length and refuses min = max (C217).
`eoInitPermutation` shuffles with `std::random_device`, so a run cannot be reproduced from the seed of `eo::rng` (C218).
`eoPropCombined*` and `eoCombinedInit` with all rates zero read past the rates (C219); `eoFlOrKMutation` reads outside of an empty vector (C220).
`eoEsChromInit` for eoEsFull has too few angles beyond 2^16 variables (C223).
`minimizing_fitness` does not recognise eoMinimizingFitnessT<float>, <int>, ... (C226).
In a build without assertions the worth selectors use stale worths (C225).
An integer swarm can rest away from its remembered and neighbouring bests (C227); eoVelocityInitFixedLength cuts or extends positions that were already evaluated without invalidating (C227).
eoSigBinaryFlight accepts the slope 0 (C228).
Observed only: eoStarTopology does not define the pure virtual `globalBest()` without arguments, so it is abstract and cannot be instantiated (its model in C140 is of its other members); all velocities ignore the generator they are given and use the global one; eoRealVectorBounds::uniform ignores its generator.

### Fronts, selection and statistics of moeo (C229–C235)

* moeoHypContinue may stop at a front that is not the known one (C230); moeoDualHypContinue stops at once if the archive is infeasible and the known front feasible (C230).
* moeoEntropyMetric divides within the logarithm where it should divide the logarithm (C231).
* moeoRouletteSelect uses the tournament size as the total fitness (C232).
* moeoBestObjVecStat never clears its individuals, so it returns those of the first population (C234).
* moeoReferencePointIndicatorBasedFitnessAssignment does not update after deletions although fitnesses change (C235).
* Observed only: the constructors of moeoHypContinue with a default reference `= NULL` cannot be used without the argument; the non-const mo_stochastic_tournament passes a generator for a comparator; moeoExpBinaryIndicatorBasedDualFitnessAssignment reorders the population and reads fitnesses before it sets them.

### Eigenvalues (C236, C237)

- `QLalgo` returns `maxIter - 1` when it is cut off and `maxIter` when it needs all iterations, while `updateEigenSystem` accepts everything below `max_iters`: a wrong eigensystem is accepted and a right one may be refused (C237).
- The arithmetic of the rotations is exact; only the test whether a number is negligible is modelled with rounding.

### EDO: algorithm, criteria, transformation (C238 - C241)

- With one estimator given, the constructors use it for the initial estimate too: adaptive estimators update twice before the first sampling (C238).
- edoContAdaptiveIllCovar divides the largest by the smallest eigenvalue without looking at signs: every indefinite matrix passes; C136 shows that such matrices do occur (C239).
- edoContAdaptiveFinite does not look at the mean (C239).
- edoTransformAdaptive clears the population before it reads its size; also its constructor does not initialise its base class, which has no default constructor, so it cannot be instantiated as it stands (C240).
- edoEstimatorCombinedStateless assigns to the distribution it has just deleted (C240).
- edoEstimatorBinomialMulti asserts that the sum of an individual is at most the size of the population, which is a bound on each probability, not on an individual (C241). One constructor of edoBinomialMulti names a static function as base class and does not compile when used.

### mathsym: expressions (C242 - C248)

- BiasedNodeSelector: when all draws are leaves, the loop has drawn a new number after taking the last subtree; number and subtree do not belong together, and crossover with it loses or doubles nodes (C242).
- get_subtree with a number too large returns the root, insert_subtree with one writes outside the vector of arguments (C242).
- eoSymInit computes `max_depth - 2` unsigned (C244).
- IsNeg defines a short-cut evaluation with a signature that overrides nothing; both branches are always evaluated (`Model/MathSym`).

### mathsym: differentiation (C249, C250)

- derivative() gives 1/a² for 1/a, −cos for sin, sin for cos, −sinh for cosh: each is minus the derivative (C250).
- derivative() gives 1/√(1+a²) for atan; differentiate() gives uᵛ·v/u for a power without the derivative of u and v (C250).

### mathsym: intervals, tables, regression, text, numbers (C251-C258)

- The interval test of arc sine and arc cosine requires the lower bound to be at least +1 (instead of -1): only arguments that are constantly one pass (C251).
- NoBoundsCheck refuses every expression (C252).
- The function table supports sums, products, squares, opposites, inverses and exponentials only; others end the program (C253).
- CovMatrix adds the product of deviations on the diagonal in both roles: two to three times the variance (C254).
- The regularisation is added inside the loop, once per case; singular weighted systems give the identity, not the mean (C255).
- Population errors divide by n-1, single errors by n; constant predictions report an error their reported scaling does not have; the unscaled worst performance 1e20 can be exceeded (C256).
- SymConst extends its table only if the number is larger than its size: equality writes one past the end (C258).
- Observed only: the weighted mean absolute error divides by n though the weights are normalised; assignment of TargetInfo does not copy the mask; initial minima and maxima of data are 1e50 and -1e50.

### moeo: dichotomic weights (C259, C260)

- The "normal" of two points is their segment's direction (components not swapped) (C259).
- The first of two opening turns does not set the iterator again: an archive that grows to two on it leaves it dangling (C259).
- moeoRandWeightStrategy divides by the sum of the draws without a test (C260).
- moeoHC, moeoILS, moeoSA, moeoTS, moeoVNS, moeoVFAS and their move loops include headers of the former mo (moMoveLoopExpl.h, moHC.h, ...) that are not in the repository: they cannot be compiled and are not modelled.

### What the make functions build (C261 - C266)

- C261: make_algo_scalar.h 243, 263, 278 read `ppSelect.second[0]` where `ppReplace.second[0]` is meant: the argument of the replacement is ignored and an empty vector may be indexed.
- C263: make_pop.h 93 says "Only the best will be retained" and keeps the first; a restart restores nothing (C173).
- C264: ga/make_op.h 119-123 and es/make_op.h 171-175, 240-244 only warn about missing rates; the former then calls a roulette wheel of total zero, the latter dereferences NULL (286, 293).
- C265: make_algo_easea.h 381-385, the overload for eoEvalFunc, has no return statement (not modelled).
- C266: make_ea_moeo.h 162 uses `atoi` for a `double`.

### Saved individuals (C267 - C274)

- C267: `EO::readFrom` reads one word for the fitness, so a fitness printed as two words (`eoDualFitness`) shifts everything after it; the size is then taken from the second word.
- C268: `eoBit::readFrom` reads one word of bits and does not look at the size, so an empty bit string takes the next word.
- C269: `EO::readFrom` does not look at the state of the stream: after the end the individual is marked as evaluated with its old fitness.
- C271: `eoVirus::printOn` writes the virus right behind the bits, `eoAged::printOn` the age right behind the individual, `eoString::readFrom` reads the fitness only, `PO::readFrom` takes the best fitness for the fitness.
- C272: fitness and diversity are not part of what `MOEO` writes.
- C273: `moBinaryPartition::printOn` writes the selected elements only; `readFrom` expects the rejected ones behind them, keeps the first size for them and inserts a variable to which nothing was assigned.
- C274: `eoHowMany::readFrom` refuses negative counts, which `printOn` writes.

### Bounds as text, integer vectors under real operators, viruses (C275 - C278)

- C275: the reader of vector bounds knows only the words `-inf` and `+inf`, which is what is written; `-infinity` and `+infinity`, which the reader of one-variable bounds accepts (and has as its default text), are read as the number 0 here.
- C275: the repetition count is read by `atoi`-like code into an unsigned number; only a result of 0 is refused.
- C276: an open bracket written `]` is accepted as an opening one; the interval is closed all the same.
- C277: the result of the real operator is rounded to the nearest integer; a move below one half disappears but `true` is returned.
- C278: in `VirusShiftMutation` the test `i > 1` should be `i > 0`: the first place is never reached from the second.

### Evolution strategies from the command line, flips with a probability, fuzzy vectors (C279 - C284)

- C279: the documentation of `sigmaInit` says `use % for scaling with range`; `10%` gives ten times the range, and the `%` is cut off the parameter itself, so the status file does not reproduce the run.
- C280: the short names `C`, `S` and `B` are each used for two parameters of the same program; giving one of them sets both.
- C282: the copy constructor of `eoRealVectorBounds` duplicates the bounds it owns but keeps the pointers of the variables to the old ones, which the original frees when it reads again.
- C283: `sampleSize` 0 still makes one neighbour; a neighbour without flips is possible and has the fitness of the solution.
- C284: `compareTriangNum` returns 0 both for total domination and for none, so the comparator is no strict order: sorting with it is undefined.

### Intervals (C285 - C287)

- The policy of mathsym (`rounded_transc_exact` over `rounded_arith_exact`) has no rounding direction: the sum of [a, a] and [b, b] does not contain a + b unless the floating-point sum is exact (`C285_nearest`). The check of bounds therefore accepts and bounds expressions up to rounding errors only; C251 and `C287_check` are statements in exact arithmetic.
- `pow` computes both ends with `pow_aux`, which rounds upwards: with directed rounding the lower end can exceed the value (`C285_pow_unsound`); `square` is right.
- `fmod` of intervals subtracts one multiple of the divisor from the whole interval: it is a shift that keeps cosines (used in `cos`, `tan`), not the set of remainders (`C285_fmod_counter`).
- The explicit comparisons do not check for empty intervals: `posne` holds between the empty interval and any other (`C286_posne_empty`).
- `cosh` of an interval on both sides of zero has lower end 0 instead of 1 (`C287_cosh_loose`).
- `C287_encloses` proves the assumption `Encloses` of C251 for the library in exact arithmetic: the trusted part of C251 shrinks to the floating-point rounding and the functions of the C library.

### Restarts over workers (C288 - C290)

- The communicator's destructor releases an array with `delete` instead of `delete[]` (not modelled).
- `ReuseOriginalPopEA` has a constructor for an evaluation of one individual that cannot be instantiated: it binds a reference to an evaluation of populations to it.
- A worker that is not among the idle workers when seeds are sent waits for ever for its seed; the model starts after the seeds have been received.
- `broadcast` takes the variable by value: whatever is received is lost (proved as such in C290; nothing in the repository uses it).

### Monitors, timers, logger, signals (C291 - C299)

- `eoFileSnapshot` reads `vec[1]` for every column but the first: probably `vec[i]` was meant (C293).
- `eoTimer` adds `1000000 - remainder` for a negative remainder: probably `1000000 + remainder` was meant (C295).
- `setlevel(name)` relies on `(Levels)-1 < 0`; whether that holds depends on the type the compiler chooses for the enumeration, so both are modelled (C296).
- The archive saver prints the file name into a buffer of 1000 characters without a check; not modelled.
- `eoCountedDynUpdate` and `eoTimedDynUpdate` (eoUpdatable.h) decide exactly as the state savers of C221 (`saverCall`, `timedRun`); no theorem of their own.

### Workers, other programs, foundries (C300 - C307)

- C300/C301: an algorithm made with an `eoPopEvalFunc` has a dummy as its `eval`, which is what the master-worker model hands to the threads: offspring are never evaluated, and a synchronous swarm throws in its first generation (`C300_population_evaluator`, `C301_population_evaluator`).
- C301: `MWModel<eoEasyPSO>` evaluates all particles before it informs the neighbourhoods: it is the synchronous algorithm (`C301_async_becomes_sync`, `C301_differs`).
- C302: the solution is printed with the tag INVALID, which so becomes an argument of the command (`C302_line`); output that is no number is taken as zero (`C302_no_number`), blank output reads a variable never set.
- C303: with the default name of the input and an ordinary file every fitness is zero (`C303_same_plain_file`).
- C305: `PipeComSend` uses the line as the format of fprintf (`C305_send`, `C305_percent`); gnuplot titles go through it.
- C306: a reference to the continuator of a foundry dies with the next run or call of name() (`C306_two_runs`).

### IBEA and MOGA (C308 - C310)

- C308: with `rho` at most 1 (raised to 1 by the constructor) the reference point lies on the bounds, volumes vanish and a dominating individual can be removed (`C308_rho_one`). Non-dominated individuals are not protected (`C308_nondominated_lost`): IBEA removes the worst by sums of penalties, so this is the method and not an error of the code.
- C310: the default `_nocopy = true` of moeoDominanceRankFitnessAssignment keeps the set of positions of copies inside the dominance matrix; it is never cleared, so positions marked in one generation punish whoever sits there in later ones (`C310_marks_stay`, `C310_nondominated_lost`). If the population shrinks below a marked position the assignment writes outside the matrix.

### Checkpoints from the command line (C311 - C316)

- C311, C312: the time counter of make_checkpoint.h is made only if something is printed on the screen, so `--fileBestStat` with `--useTime` alone has no time column; with the Ctrl-C monitor the counter is added to the eoSignal, so the file shows the time of the last signal (`C312_signal`).
- C311: testDirRes, which erases, is called for plots also when the plots are compiled out (no gnuplot).
- C314: make_checkpoint_FDC.h makes the second-moment statistic only for the screen but gives it to the file monitor: `--fileBestStat` without `--printBestStat` dereferences a null pointer (`C314_fdc_crash`). make_checkpoint_assembled.h reads the first term unchecked.
- C315: make_checkpoint_moeo.h makes the statistic that prints the population but no monitor for it: nothing is printed (`C315_moeo`).
- C316: the comment of testDirRes promises to check for an empty directory; an empty one is refused (`C316_refused`), the status of mkdir and rm is ignored, an empty name erases the files of `/` (`C316_root`).

### Constructors, exceptions and small parts (C317 - C326)

- C317: `what()` is not overridden where `message()` is, so programs that catch std::exception print nothing for a file that cannot be opened, a missing parameter, a wrong population size.
- C318: the constructor of moSA with only a continuator builds the schedule (0, 0, 0, 0), whose final temperature is reached at once: one iteration (`C318_one_iteration`). At temperature 0 the model of `accept` (C25) refuses what is not better: in C++ exp(-x/0) is 0 and NaN compares false.
- C319: size 0 divides by zero after the first move (`C319_size_zero`).
- C320: unlike make_continue.h the Ctrl-C continuator is on by default and the short option T is the time, not the target fitness.
- C321: `negate` takes the reciprocal, and its default differs between the two constructors (`C321_opposite`, `C321_negative`); the default evaluator does nothing (`C321_not_evaluated`).
- C324: list_of_files.txt is truncated also if the files of an earlier run are kept (`C324_constructor`).
- C326: `slot_size - 1 <= 0` and `max - min <= 0` are computed on unsigned numbers (`C326_categorical`, `C326_ranged`).

### Distances and records of samplings (C327 - C331)

- moeoEuclideanDistance.h 64 takes the normaliser by value and stores a reference to the parameter: every use of such a distance reads a destroyed object (C328). moeoManhattanDistance takes it by reference.
- moVectorMonitor's constructor for an arbitrary parameter leaves all its pointers null, so a monitor for `int` or `bool` compiles and dereferences a null pointer at the first call (C329). A scalar fitness over another scalar type is read through a pointer to `double`.
- moNeighborhoodStat compares by the order of the fitness but sorts its numbers as numbers: for minimised problems `min` is above the quartiles and `max` below (C331).
- moNeighborhoodStat leaves all members as they were for a solution without neighbours; the statistics made from it do not ask for its `value()` (C331).
- moeoNormalizedDistance (setup of the bounds, widened by 1e-6) is not modelled beyond its Euclidean instance; setup with an empty population is undefined behaviour there.
- Rounding of `unsigned long` to `double` in moVectorMonitor is left out.

### Evaluators that throw, selectors, equal comparators, clouds (C332 - C336)

- eoEvalNanThrowException throws after the fitness was set: the individual stays valid with a fitness that is not finite, and a second evaluation passes over it (`C332_nan_again`).
- eoEvalUserTimeThrowException is an eoEvalFuncCounter whose operator does not raise the counter: eoEvalContinue on it never stops (`C332_counter`).
- eoEvalTimeThrowException calls `func(eo)` where `func` is a member of a dependent base class: not found when the template is used, so it does not compile. Not modelled.
- eoStochTournamentSelect turns every rate below 0.5 into 0.55, so 0.4 is a stronger preference than 0.52 (`C333_rate`).
- The comparators that accept equals make hill climbers that never end on any plateau of two mutual neighbours (`C334_never`).
- moNeutralWalkSampling records a stuck last solution twice (`C335_rows`). The clouds record `Fitness()` for solutions without neighbours (`Shows`, C336). The second constructor of moNeutralWalkSampling (without distance column) differs by that column only.

### Flow-shop problem of the tutorials (C337 - C339)

- The crossover draws two points until they are three apart; with fewer than four jobs this never ends (`C338_never_ends`).
- A truncated instance without a final newline is read as an instance with repeated jobs (`C339_missing_repeated`).
- `(int) (C - d)` makes delays of 2^31 and more vanish (`C337_large_delay`).

### Applications and tutorials (C340 - C345)

- Mastermind: the copy of the guess is not marked at the right positions, only that of the solution, so whites are overcounted if the solution repeats a colour (`C340_wrong_order`).
- Mastermind: the checks of the solution are skipped if length or number of colours has its default value 8, and compare with `>` instead of `>=` (`C341_accepted`, `C341_unreachable`).
- Parallel tutorial: assignment of an unevaluated problem throws half way (`C343_assign_unevaluated`); the mutation never ends on one item (`C342_mutation`).
- C344 holds for any number type; its last part and C345 are about exact arithmetic, as rounding breaks them.

### Whole runs with worker processes (C346 - C347)

- C347: `eo::parallel.isDynamic()` is the option of the shared-memory loops and true by default; the evaluator by message passing asks it whether to adapt the packet size. With StaticAssignmentAlgorithm, whose runs are set to the number of workers for each population, this leaves all but the first packets without a worker: the master waits for ever.

### Training rates (C348)

- C348: `coeff_adapt` is called before `weight_update` divides the accumulated gradient by the number of samples, so lambda0 = 0.1 is not the ratio of the two parts of a step but a tenth of the number of samples times it.

### Perceptrons (C349 - C352)

- C350: `set::load` of a text starting with `0 0` appends empty samples for ever.
- C351: `layer::perturb` and `net::perturb` call the next level without handing their arguments on. `eoChromXover` only trains its two arguments, after normalising the one and desaturating the other.
- C352: `operator>` is `!(a == b) && !(a < b)`, which for NaN holds in both directions and of a net with itself.

### Symbolic regression (C353, C354)

- C354: `for (x=-1; x <= 1; x+=0.1)` with a `float` runs twenty times; the end point 1 is never sampled, and the point near 0 is about 7.3e-8 off.

### Adapters and EDA (C355, C356)

- C355: eoQuad2BinOp exchanges the arguments and takes the result at the place of the first parent in both cases; for symmetric crossovers the flip is without effect.
- C356: eoSimpleEDA draws `popSize` individuals in the constructor of the population and draws all again before looking at them. With OpenMP enabled `apply(_distrib, pop)` would draw from several threads at once.

### Gnuplot (C357, C358)

- C357: `PipeComSend` calls `fprintf(to->fWrit, line, 0)`, so file and parameter names are formats; `%s` reads a null pointer.
- C357: names that contain an apostrophe end the quoted text in the command (not modelled: gnuplot's reading).
- C358: eoGnuplot1DSnapshot::operator() does not look at `hasChanged()`.

### Compiled formulas and counted pointers (C359 - C362)

- C359: FunDef.cpp 352 prints `/*f*/` before the body of a lambda and 699 prints `(1./` before the argument of an inverse: together `1.//*f*/`, a comment to the end of the line (tcc accepts such comments). The function does not compile. The evaluation without compiling has a value.
- C362: `weak_ptr::lock` does not look whether the object still exists; it cannot, the counter goes with the object.

### Shared formulas (C363 - C364)

- `x = x.args()[i]` (Sym.h 70-76) gives up the old formula before it reads the new one, which lies inside it: with no other reference this is a use after free (C363_own_argument).
- get_depth starts at 1 (Sym.cpp 42), so `Sym(tok, SymVec())` has depth 2 and `Sym(tok)` depth 1 for the same formula; which one is stored depends on the order (C364_depth_history).

### Symbolic regression program (C365 - C366)

- symreg.cpp 366-374: `is_ratio` needs `is_poly`, which needs `--poly`; `--ratio` alone enables `inv` only, against its description (C365_groups).
- DagSizeStat reports the size of the global table; at the checkpoint the offspring of eoEasyEA still exist, so formulas outside the population are counted (C366_dag_population, C366_offspring_counted).

### Data file of the symbolic regression (C367)

- Dataset.cpp 50-53: the stream is tested before each reading but not after the last one, so a record without target, or with a text in its place, silently gets the target zero (C367_file, C367_unreadable).
- Dataset.cpp 43: an empty first line gives `n = 0` and `n - 1` wraps around (outcome `huge`).

### Homogeneous island models (C370)

- islandModelWrapper.h 72: all islands get the same continuator and policies, so a limit on generations limits the sum over all islands (smp/test/t-smpMI_Wrapper.cpp runs 50 islands with one eoGenContinue). The counters are changed by several threads without a lock, which is a data race; C370 takes each change as atomic.

### Shuffles (C373)

- ga/eoBitOp.h 129-136: eoDetSingleBitFlip exchanges entry i with an entry drawn among all of them (rather than among the remaining ones), so the bits it flips are not uniformly distributed.

### Stationary distributions (C375)

- The probability of a step is defined from the model of one iteration (explore, accept, move) with the uniform distribution on the moves and Lebesgue measure on [0,1) for `rng.uniform()`; that the generator has these distributions is not part of the theorem (C177 gives the exact frequencies of the real generator).

### Convergence (C376)

- The flips of the generations are independent with probability p for each bit (finite product weights); the rest of the breeding is arbitrary and may even depend on the flips of the same generation. `Elitist` is proved of `plusReplacement`; weak elitism around the generational replacement satisfies it for as many offspring as parents (`C376_weak`).

### Regraded objectives (C391)

`moeoObjectiveVectorTraits::tolerance()` is an absolute `1e-10`: an objective whose interesting differences are smaller than that is invisible to every comparator, so results depend on the unit of the objectives (`C391_not_unit`). The strict comparator is left out: it asks `< tolerance` where the others ask `> tolerance`.

### Zeros and ones alike (C393)

In the run an operator that fails (undefined behaviour, assertion) leaves the string, in both runs alike; the single operators are compared with their failures.

### Swarms in other coordinates (C394)

Coordinates are rational numbers: with doubles, scaling by powers of two is exact barring overflow, other maps hold up to rounding.
One draw per particle, not one per variable as in the literature, is what makes the swarm indifferent to rotations; C143 is the price of it.

### Numbering of elements (C395)

The genomes of the run are the lists that are permutations of 0, ..., n-1; an operator that fails leaves the permutation, in both runs alike.

### Local searches on rewritten problems (C396)

Together with C390 (transformed fitness) this covers both parts of an isomorphism of problems.

### Real vectors in other units (C397)

The statement is over exact arithmetic: in floating point a conversion rounds, so that equality holds only up to rounding.
eoDetUniformMutation without bounds overwrites the chosen variable by `2*epsilon*uniform - epsilon` (C146_det_free_replaces); `C397_det_not` shows what that means for the user: the operator depends on the origin.
The recoded run uses the segment crossover and the bounded uniform mutation; a mutation that throws ends a real run, here it leaves the vector, in both units alike.

### Distributions in other units (C398)

Over exact arithmetic, like C397. CholeskyLDLT and the algorithm on CMA-ES distributions are not part of it (C138 for the latter).
That the matrix depends on the origin is a consequence of edoEstimatorNormalMulti not subtracting the means (C131); `C398_multi_origin` says exactly for which shifts it shows.
`C398_run` takes the operators as parameters with what each has to satisfy; `C398_box_run` is an instance with nothing left to assume.

### Expected running time (C399)

The random numbers are, as in C376, the flips of one mutation per generation, independent and with probability p each; everything else (other offspring, ties between best individuals, the order of the population) is arbitrary.
The expectation is the sum over t of the probability that no optimum is in the population after t generations (`C399_expectation` as an infinite sum); no measure on infinite runs is needed.
Only an upper bound on the number of generations is stated; the number of evaluations is that number times the offspring per generation.

Observed only: eoSeqPopulator throws an exception class of its own which eoProportionalOp does not catch; eoPropCombinedBinOp returns void; eoFlOrBinOp/eoFlOrQuadOp and eoInvertedContinue do not compile when instantiated; moBitsNeighbor::move does not invalidate; moBinaryPartition printOn/readFrom do not match; moSolVectorTabuList leaves its index uninitialised; exceptions built but not thrown in eoBitOp constructors; moeoOneObjectiveComparator accepts the index nObjectives; moeoFuzzyArchive never inserts; nkLandscapesEval::load always throws.

## Trusted base

Lean 4.33.0 kernel and Mathlib; each theorem depends on at most `propext`, `Classical.choice`,
`Quot.sound`. No `sorry`, no own axioms, no `native_decide`/`bv_decide`. The correspondence
model ↔ C++ is by reading (citations in comments), not mechanised. Specific trust:
the hypervolume theorems use Mathlib's Lebesgue measure as the specification; rates in eoHowMany are
exact numbers (`ceil` of an exact product); `std::upper_bound`, `std::sort`, `std::nth_element`,
`std::shuffle` are assumed to keep their standard contracts on ranges that meet their preconditions.
