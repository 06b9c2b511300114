# Formal model of forcedotcom/distributions (C++) in Lean 4

## 1. What is modelled, and how

The C++ library in `/repo` (headers in `include/distributions`, sources in `src`)
is modelled function by function in `lean/Verif/Model/*.lean`. Each definition
cites the file and lines it models. The code is never run here: the tie between
model and code is the reading recorded in those citations.

### Outcomes (`Verif/Base/Res.lean`)
Every modelled function that can fail returns `Res α`:
`ok a` | `fail` (a `DIST_ASSERT`/`DIST_ERROR` fired: abort or exception) | `ub`
(undefined behaviour: out-of-range `operator[]`, signed overflow, missing
hash key dereference, read of an uninitialised member). Assertions take the
debug level (`DIST_DEBUG_LEVEL`: 0 in Release, 3 in Debug and Python builds) as
a parameter, so a theorem can quantify over all levels.

### Integers
`int`/`int32_t` counters are `Int` with an explicit range check (`ub` on signed
overflow) where the property is about counters; `uint32_t` statistics are
`BitVec 32` (wrap-around is defined behaviour). `size_t` is `Nat` unless the
property is about wrap-around.

### Floating point
The code is float32. Code models are written once, polymorphically over a class
`FloatOps F` (`Base/FloatOps.lean`) that lists the operations used and assumes
**no laws**. The kinds of theorem:
* *law-free*: for every `F`, hence bit for bit for IEEE float32 with whatever
  rounding (cache coherence, index ranges, structural validity);
* *exact*: `F := XR` (`Base/XR.lean`), the reals plus one absorbing exceptional
  value `nan`. Division by zero, `log` or `lgamma` of a non-positive number give
  `nan`, so a theorem concluding `= XR.fin r` also proves that no exceptional
  operation happened. `XE` (`Base/XE.lean`) also has the two infinities, for
  code that relies on `log 0 = -inf`. Rounding error is **not** covered;
  `π`, `log π` are exact; `fast_log`, `fast_lgamma`, ... are idealised as the
  exact functions, their own table code is modelled separately (C47-C51);
* *rounded*: `RR rnd` (`Base/Rounded.lean`), reals with every operation rounded by
  any `rnd` satisfying `Rounding` (monotone, exact on 24-bit numbers, relative
  error `2^-24` plus `2^-150`); rounding to nearest is proved to satisfy it.
  Overflow to infinity is not modelled there;
* *bit level*: `F32` (`Base/Float32.lean`), 32-bit patterns and their values, for
  code that takes floats apart (`fast_log`, `fast_lgamma`, `fast_exp`).

### Containers
`unordered_map`/`unordered_set` are `FMap` (`Base/FMap.lean`), finite maps; every
iteration goes over an arbitrary enumeration of the map, and theorems quantify over
all of them. `std::vector` is `List` with checked access (`getAt`, `setAt`,
`backOf`, `popBack`). The vector kernels of vector_math work on buffers with
explicit lengths. `std::sort` enters by its contract (a sorted permutation).

### Randomness
The rng is an arbitrary state machine (`Rng` record, `Model/Random.lean`: state,
`unif01`, and the primitive draws as unconstrained functions). Theorems hold for
all of them unless a law is assumed. Distributional claims are stated as the
exact set of uniform draws selecting an outcome and its measure, or (C59, C60) relative
to a probability measure on states under which the primitive draws have the laws the
C++ standard gives them and leave an independent state behind (`Spec/IdealRng.lean`).  For the
reference implementation the draws of numpy and scipy have the laws of their documentation
(`Spec/IdealNumpy.lean`).  Such sources exist (`idealRng_exists`, `idealNumpy_exists`); that the
Mersenne twister behaves like one is not claimed.

### Other parts
* Linear algebra (NIW): Eigen's inverse, determinant and Cholesky factor are a
  parameter `LinAlg`; scores use the exact ones.
* Protobuf messages are records with `repeated` fields as lists and the declared
  integer widths (C40). The generated classes (schema.pb.cc) are modelled on byte
  lists (C64): a class is its list of fields, each method is written once for all
  classes; varints, `fixed32`, packed values and nested messages follow the documented
  encoding; unknown fields are the library's, under laws that a concrete library
  without groups satisfies. Reflection, `Swap`, the descriptor tables and the text
  format are not modelled. Item streams are modelled on byte lists (length prefix and
  JSON lines).
* Concurrency: only `log_stirling1` has shared mutable state. Its threads are
  modelled at statement granularity with the mutex; the memory model below that is
  not.
* `posix_memalign` is a parameter of the allocator model.
* The Python reference `distributions/dbg` is modelled (`Model/Dbg.lean`) with
  Python 2 semantics of `/`, unbounded integers and exceptions as `fail`.
* The Cython implementation `distributions/hp` is modelled (`Model/Hp.lean`) with C
  `int` arguments, `cdivision` off, zeroed allocation, and exceptions swallowed (result
  0) in `cdef double` functions.
* `fast_exp` (`Model/Exp.lean`) models the SSE conversion, min/max and the bit
  assembly; a shift the C++ standard leaves undefined is `ub`, and the value the
  processor computes is modelled beside it.

* Single precision (C75 onwards) is `Single lib` (`Model/Single.lean`): real numbers
  with the result of every operation rounded to the nearest single precision number
  (24 bits, ties to even, gradual underflow), and `fast_log`, `fast_lgamma`, `fast_lgamma_nu` and
  `fast_log_factorial` evaluated on the bit pattern of the argument. `fast_lgamma`
  accumulates in `double`; those operations are taken as exact, with the single precision
  coefficients as in the source. Not modelled: the `double` roundings,
  overflow to infinity and NaN (the theorems bound their arguments away from both),
  contraction to fused multiply-add, and reassociation under `-ffast-math`. `lgammaf`
  and the constants of `fast_exp` are parameters.

## 2. Trusted base
Lean 4.33.0 kernel; Mathlib; axioms `propext`, `Classical.choice`, `Quot.sound`
only. `AXIOMS.md` lists the axioms of each property theorem as printed by
`#print axioms`. No `sorry`, no own axioms, no `native_decide`/`bv_decide`;
`decide +kernel` is used on finite tables only.

Not proved: that the Lean definitions match the C++ text (reading, cited line by
line), compiler/STL/protobuf/Eigen correctness, float32 rounding in exact
theorems (C47, C69, C70 and C75-C78, C81 and C82 include it), `std::` random distributions, SIMD code generation, the Python/Cython
wrappers (except where named; C79, C80, C83 and C84 model their dictionaries, messages, mixtures, score arrays, clusterings and sampling functions).

## 3. Layout
* `Verif/Base` outcomes, float interfaces, exact and rounded reals, finite maps
* `Verif/Model` models of the code, with citations
* `Verif/Spec` small specifications, independent of the models
* `Verif/Lemmas` helper lemmas
* `Verif/Props` the property theorems (one file per topic), each with an example
  that meets its hypotheses
* `seeded/LOG.jsonl` wrong programs tried against the theorems

## 4. Per property
`MANIFEST.json` has the status and theorem names; here is how each is expressed.

| id | modelled | how proved, or what is false |
|---|---|---|
| C01 | `Packed_` over `List` | direct, index-wise |
| C02 | `SparseCounter` as finite map + total (uninitialised until clear) | refinement to counts with finite support, induction over operation lists |
| C03 | `merge` over every enumeration | pointwise sum proved; *finding*: the total is double counted |
| C04 | `Sparse_` | refinement to a partial function |
| C05-C08 | `MixtureDriver` with int32 checks and debug level | invariant, induction over histories, exact post-states; *finding* C08: with assertions off a negative add corrupts the state |
| C09, C10 | `MixtureIdTracker`, ids mod 2^32 | invariant with ghost creation log; *finding* C10: ids are reused after 2^32 creations |
| C11 | driver + slave mixtures + tracker | refinement to a map from global id to multiset of values |
| C12 | `score_value` | index-wise |
| C13 | `PitmanYor::CachedMixture` | law-free cache invariant; exact equality with `score_add_value` |
| C14-C17 | Pitman-Yor scores | Gamma recurrences, induction over seatings; negative alpha makes the code take `log` and `lgamma` of negative numbers, handled in `XA` (`Base/XA.lean`), which has `log abs x` and `log abs Γ(x)` as the library does; *finding* C15: at alpha = 0 every score is NaN |
| C18, C22 | `sample_assignments` over any rng | law-free loop invariant |
| C19 | `count_assignments` | induction over the enumeration |
| C20, C23 | LowEntropy scores | exact characterisation; *findings* where false |
| C21 | LowEntropy increments | real analysis bound |
| C24 | partition table | recurrence for the partition sum by a bijection on set partitions; all 48 entries checked in the kernel with certified logs |
| C25-C27, C29 | group statistics of all seven models | fold lemmas, law-free for integers, exact for floats; *findings*: NICH repeated add, NICH merge of empty groups, DD merge total, DPD merge total |
| C28 | scores, exact | Gamma recurrence per model, determinant lemma for NIW |
| C30, C31 | normalisation | finite sums; negative-binomial series; *finding*: BNB omits a binomial coefficient for r ≥ 2 |
| C32 | Student-t integral | Beta integral by substitution |
| C33 | `plus_group` | field identities |
| C34-C36 | scorers, slave mixtures, grids | law-free cache invariant; exact sums; *findings*: uninitialised DD mixture, groups of count 0 in debt |
| C37-C39 | DPD shared/mixture | invariants over protocol histories; *findings*: clamp at `MIN_BETA` adds mass, `realize` overflow, removing a nonempty group |
| C40 | dump/load | round trip with width conversions; *findings*: merged DD, DPD count overflow, lost weights |
| C41 | NIW over `Matrix` | determinant lemma, all dimensions; *finding*: signed count times unsigned dimension |
| C42-C46, C58 | samplers | explicit inverse-CDF characterisation for every draw; *findings*: zero-likelihood index at u = 0, empty vector, NaN from a Dirichlet of zeros |
| C47 | `fast_log` | bit-level index range for all patterns, accuracy in any `Rounding` |
| C48 | `fast_lgamma`, `fast_lgamma_nu` | bit-level; *finding*: out-of-bounds read for every NaN |
| C49 | `fast_exp` | accuracy exact (`2^-22`) and rounded (`2^-16`); *findings*: the clamp tests the value, not the bits, so 88.8 gives NaN, 91..177 a negative number, 267 and up undefined behaviour, as do very negative inputs |
| C50 | `log_stirling1` cache | invariant over call histories and thread interleavings |
| C51 | `fast_log_factorial`, floor-log2, tables | index arithmetic; *finding*: negative sample sizes |
| C52 | vector kernels | element-wise, law-free; *finding*: min/max of an empty buffer |
| C53 | message closeness | reflexive, symmetric, order independent; *findings*: not transitive, DPD counts mod 2^32 |
| C54 | item streams | round trip; *finding*: a truncated stream is read as a shorter item |
| C55 | aligned allocator | size arithmetic mod 2^64 |
| C56 | uninitialised members as `none` | set by initialisation, never unset; *finding*: the DPD example constructor reads before writing |
| C57 | `distributions/dbg` | relation between the two states preserved by every operation, scores equal; *findings*: DD merge, Python 2 division |
| C59 | `sample_value` over ideal randomness | Gamma, Beta and Dirichlet integrals; exact law of (value, next state); *finding*: for BNB with r ≥ 2 the sampler and the score disagree by the binomial coefficient; NIW (`Model/NIWSample.lean`): Bartlett's construction integrated in every dimension, *finding* below |
| C60 | `PitmanYor::sample_assignments` over ideal randomness | induction over the customers left, likelihoods tied to the seating probabilities of C15 |
| C61 | `distributions/hp` (Cython, `Model/Hp.lean`) | simulation over histories, exact scores, same function of the random draws; *findings* below |
| C62 | `sample_group` (`Model/SampleGroup.lean`) over `Spec.IdealRng` | the laws of C59 iterated with the parameters drawn once: Dirichlet, gamma and normal-inverse-chi-squared integrals; normal-inverse-Wishart through the Gram matrix of the Bartlett factor (`NIW.sampleGroup_law`); hp makes the same draws; BNB and NIW *findings* below |
| C63 | `LowEntropy::sample_assignments` over `Spec.IdealRng` | induction over the items with the likelihood vector as invariant; the documented joint law holds for the last item only, *finding* below |
| C64 | generated message classes: parse, serialise, `ByteSize`, merge, copy, `operator==`, nested `Clustering`, accessors | schema-generic: induction over fields and values shows that parsing a serialisation is merging; inversion for truncated input; composed with C40 for objects |
| C65 | `sparse.hpp`, `SparseCounter`, driver, id tracker, groups, `MixtureSlave`, DPD `Shared`, DD/DPD loads, as actions that keep the object when a check throws | each action refines the `Res` function already modelled (`C65_refines_*`); clean or not, case by case; induction over caught calls for the driver and the id tracker |
| C66 | `examples/mixture/main.py` (`ImageModel.Mixture`, the loops, `compress_gibbs`, `compress_seq_gibbs`, `compress_sequential`), `sample_discrete_log` and `scores_to_probs` in Python, on top of the driver, the cached Pitman-Yor mixture, the id tracker and the feature mixtures with their caches; a Dirichlet-Discrete mixture starts from the scorer `init` leaves, since `add_group` before the first `init` is undefined (C66_dd_uninitialised); the shared state of a Dirichlet-Process-Discrete feature is fixed and knows all values, as resampling its weights is a separate step | refinement of the mixture by the items it holds (`Lemmas/GibbsState`, `GibbsScores`), law of one draw by pushing the sampler's law through the code (`GibbsLaw`), detailed sums over partitions and a minorisation argument for convergence (`GibbsChain`), induction over items and passes (`GibbsRun`) |
| C67 | `json_loop_load`, `annealing_schedule`, `compress_annealing` of the example, with the schedule's state an exact integer and the loop run on fuel | invariant of the sliding window of assigned samples (`Lemmas/Annealing`), a bound on the number of rounds; non-termination on an empty dataset is proved (`C67_no_samples`) |
| C68 | the samplers of `distributions/dbg` (`Model/DbgRandom.lean`) over `Spec.IdealNumpy` | conjugate integrals over the draws of the parameters (beta, Dirichlet, gamma, normal-inverse-chi-squared, normal-inverse-Wishart through the law of the Gram matrix of either branch of `sample_inverse_wishart`), the value law being the one-element case with posterior parameters; BNB lacks a binomial coefficient in its score as in C62 (`C68_bnb_fails`) |
| C69 | `fast_lgamma` and `fast_log_factorial` on bit patterns (`Model/Special.lean`), values in `RR rnd`; the code's intermediate sums are doubles, here every operation has the error of a float, which is weaker | Stirling's formula with error bounds for real arguments (`Lemmas/StirlingReal`), the difference between each polynomial and the formula enclosed by a polynomial plus an error (`Lemmas/Enclose`), bounded on 248 pieces by kernel evaluation (`Lemmas/LgammaCheck`); rounding by `Lemmas/RoundRel`, conversion of integers by `Lemmas/IntToFloat` |
| C70 | `fast_lgamma_nu`, same model | asymptotics of log Γ(x + 1/2) - log Γ(x), arguments below 16 moved by ten half steps, enclosures on 288 pieces (`Lemmas/HalfStep`, `Lemmas/NuCheck`) |
| C71 | `sample_partition_from_counts`, `sample_stick` (`Model/DbgRandom`), the loop of the stick with a bound on the rounds | the loop reads the permutation in pieces; induction over the rounds with the mean of a beta variable |
| C72 | `sample_student_t`, `score_student_t`, the three Wishart samplers (`Model/DbgRandom`, `Model/Dbg`) | density of a normal vector over a chi variable, first and second moments; the claim is false of the code, the true laws and means are proved (`Props/RandomVectors`) |
| C73 | `multinomial_goodness_of_fit` and the functions built on it (`Model/Util`), scipy's survival function, `int(x)` and the number of bins as parameters; `print_histogram` (`Model/Histogram`): printed lines as a list, bars computed exactly | first and second moments of the counts by induction over the draws; uniqueness of sorting; the claim is false of the code for untruncated data (`Props/GoodnessOfFit`) |
| C74 | `bin_samples`, `histogram` (`Model/Util`) | closed form of the bins of the sorted list, which split it in three at each bin (`Props/BinSamples`) |
| C75 | the functions of C20-C34 at `Single` (`Model/Single`): reals with every result rounded to the nearest single precision number, `fast_log` etc. evaluated on the bit pattern of the argument | relative errors multiply along the expression (`Lemmas/Factor`), table error from C47 (`Props/SinglePrecision`, `Props/SinglePitmanYor`); the cached scores of a Dirichlet-Discrete mixture from C35's bit equality (`Props/SingleDD`), those of a Dirichlet-Process-Discrete mixture from C37's (`Props/SingleDPD`) |
| C76 | `NICH.Scorer` at `Single` | same, with the second factor unbounded (`Props/SingleNichAccuracy`); false for large groups: `fast_log` is constant on `[1, 1 + 2^-14)` (`Props/SingleNich`) |
| C77 | `GP.Scorer`, `BNB.Group.scoreValue` at `Single` | error of the sums from C47 and C69 (`Props/SingleCountsAccuracy`, `Props/SingleBnbAccuracy`); false for large groups: the logarithms of `b` and `1 + b` fall in one table cell (`Props/SingleCounts`), `fast_lgamma` exceeds `2^23` where floats are integers (`Props/SingleBNB`) |
| C78 | `logBeta`, `fastLogBeta`, `logBinom`, `fastLogBinom`, `scoreStudentT`, `fastScoreStudentT` (`Model/Scalar`), `NIW.lmultigamma` | Euler's integral, factorials, the Student-t integral, product form of the multivariate gamma function (`Props/Scalar`); rounding errors as in C76 and C77 (`Props/SingleScalar`, `Props/SingleScalarAccuracy`) |
| C79 | `load`/`dump`/`protobuf_load`/`protobuf_dump` of the Cython wrappers (`Model/PyIo`): Python integers as `Int` with the check of conversion to C `int`, doubles and floats as two types with a rounding that fixes floats, fixed arrays of 256 as lists with writes outside as undefined behaviour | symbolic execution in `Act`, loop lemmas by induction, tables through `SparseCounter.Rep` (`Props/PyIo`, `Props/PyIoArrays`, `Props/PyIoTables`); *findings* below |
| C80 | `Mixture`, `vector_float_from_ndarray`, `vector_float_to_ndarray`, `MixtureIdTracker` of the wrappers (`Model/PyMixture`): numpy arrays as offset, stride and length over a block of memory; `for` as an inductive relation over `__getitem__`; `-O` as a flag | case analysis and C35 (`Props/PyMixture`); *findings* below |
| C81 | the score conversions of C43/C44 at `Single` (`Model/Scores`, `Model/Single`); assumed of the C library: `logf(2)` and the table of powers to an ulp; the logarithm of `score_from_scores_overwrite` is the C library's and is left out | `fast_exp` error from C49, sums by induction, the sampling loop against the cumulative likelihoods, measure of the interval (`Props/SingleScores`) |
| C82 | the inference of C66 at `Single`: the mixture, the clustering caches, Beta-Bernoulli, Dirichlet-Discrete or Dirichlet-Process-Discrete features and the sampler of the library rounded at every operation (`Spec/SingleGibbs` has the features and the error terms); the exact model serves only as the posterior to compare with. With the sampler of the library and `N` groups the step error contains `N^2/2^20`, so the bound says something for up to some hundreds of groups; the other features, whose groups hold floats that drift, are left out | the single-precision mixture refined by the exact one over the same items (`Lemmas/SingleGibbsState`), score errors from C75 and C77 (`SingleGibbsScores`), laws up to an error that compose (`SingleGibbsLaw`, `SingleGibbsRun`), the sampling loop against its cumulative sums (`SingleDraw`) |
| C83 | the clustering mixtures of the wrappers (`Model/PyRandom`): methods as statement-by-statement calls that keep the object of a failed call (`Act`), Python integers converted to `int` and then `size_t`, the array conversions of C80 | each call in terms of group sizes from C05, C13 and C65, programs by induction (`Lemmas/PyClustering`, `Props/PyClustering`); *findings* below |
| C84 | the sampling functions of the wrappers (`Model/PyRandom`): a failed check in `lp/random.pyx` terminates the process (declared without `except +`), in `lp/clustering.pyx` it raises; `sample_discrete` reads its whole range even where the C++ loop stops early | C43-C45 and the loop of `score_from_scores_overwrite` (`Props/PyRandom`); *findings* below |
| C85 | the class `LowEntropy` of `dbg/clustering.py` (`Model/DbgClustering`, with `Model/Dbg`): Python integers without overflow, division rounding down, list indices from the end, `math.log` raising | the sampler in step with the assignments so far for any float type, its law by induction over the vector (`Lemmas/DbgClustering`, `Props/DbgClustering`); `score_counts` is partial: it agrees with the C++ code exactly when the sample size divides the dataset size or there is one group (C85_score_incomplete); *finding* below |
| C86 | the counting and probability functions of `derivations/clustering.py` and the numbers `code` writes (`Model/Derivation`): counts are exact instead of doubles, dictionaries are item lists iterated in any order, file caches and plots are left out | induction over the number of items: every clustering of n+1 items arises once by adding the last item to a clustering of n items (`Lemmas/Derivation`); marginals by the same induction (`Lemmas/DerivationProbs`); the table by a kernel-checked bound on its 48 logarithms (`Props/Derivation`); the true correction of a new cluster by a sum over clusterings and their clusters (`Props/DerivationPostpred`); *finding* below |
| C87 | `multinomial_goodness_of_fit` (`Model/Util`) on independent draws over any probability space; scipy's survival function assumed exact | Pearson's theorem from Mathlib's one-dimensional central limit theorem and Lévy's convergence theorem (`Lemmas/PearsonLimit`), the chi-squared law as a gamma law by moment generating functions (`Lemmas/ChiSquared`); the claim is false of the code for untruncated data (`Props/GofLimit`) |
| C88 | `NICH.Group.addValue`, `removeValue`, `merge`, `Shared.plusGroup` at `Single` | induction over the values, or over trees of additions and merges: the new mean is between the old one and the value (`Lemmas/SingleWelford`), hence both factors of the increment have one sign; concrete witnesses for removal, overshoot of merged means; *finding*: the sum of squares stalls (`Props/NormalStatistics`); explicit error bounds against the exact mean and spread, by induction with the exact Welford recurrence (`Lemmas/WelfordAccuracy`, `Props/NormalAccuracy`) |
| C89 | `NIW.Group`, `NIW.Shared.plusGroup`, `GP.Group` at `Single` | the theorem of Reiser and Knuth for rounding to nearest even with subnormal numbers (`Lemmas/NoDrift`), induction over cycles; refinement of runs on integer vectors to bags (`Props/GroupCycles`); *findings*: removal inexact, posterior matrix indefinite after three observations |
| C90 | `Img.sampleFromImage`, `Img.tally`, `Img.synthesizeImage` on the mixture of C66 | the law of rejection sampling inside `sample_discrete`, induction over samples, in exact arithmetic with an ideal source; the density from the invariant of the inference loops (`Props/ImageExample`). Modelled before the conversion to bytes; the Gaussian blur, the colours and the files of the example are not; *findings*: blank and one-pixel-wide images |
| C91 | `Py.toProtobuf`, `fromProtobuf`, `fromDict`, `fromValues` over the methods of C79 | composition of the round trips of C79 for an arbitrary new object; induction over the values (`Props/Mixins`). The wrappers of groups have no message methods (only the reference classes do), so `Group.to_protobuf` of the compiled classes raises and is not modelled; Dirichlet-process and Wishart classes are covered by C79 only; *findings*: as in C79, and negative counts |
| C92 | `derivations/betabinomial.py` and three functions of `derivations/loggamma.py` (`Model/BetaBinomial`), exact; numpy's draws as in `Spec/BetaBinomial`, its histogram by edges | the beta integral of C68 for lists of counts (`Lemmas/BetaBinomial`), induction over samples with the parameters drawn first, Stirling's formula with bounds (C69); *findings* below |
| C93 | `NormalInverseWishart<-1>` with the size of every vector and matrix (`Model/NIWShapes`), Eigen's size checks as a parameter of the build, the array conversions of `_eigen.pyx`; other classes with run-time sizes are in C61, C79, C80 | refinement to the fixed-dimension model of C06-C09 by computation, an invariant over updates, case analysis of the first mismatch; *findings* below |
| C94 | `update_license.py` (`Model/License`): files as lists of characters, the directory walk as a list, commands as loops over the contents; file-system errors and the command line are left out | reading and writing of lines as inverses (`Lemmas/License`), the code of a text as a relation in `Spec/License`, idempotence per file lifted to the loop; *findings* below |
| C95 | `Shared` and the input and output of `Group` of distributions/dbg/models/dpd.py (`Model/DbgDPD`), dictionaries as finite maps with integer keys and an arbitrary iteration order, exceptions as failures that keep the state, numpy's beta variates as a parameter (its own exceptions are not modelled) | induction over histories and over the rounds of `realize` with the total weight as invariant; loop lemmas for reading and writing (`Props/DbgDPD`); *findings* in the statement |
| C96 | `load`, `dump`, `protobuf_load`, `protobuf_dump` of all reference classes but the Dirichlet-process one (`Model/DbgIo`); numpy arrays as shape and entries, loading as actions on the object and writing as actions on the message so that what an exception leaves behind is visible; missing entries and entries of wrong types are not modelled, nor the precision in which a message file stores numbers beyond rounding and widening | case analysis and loop lemmas (`Props/DbgIo`), equivalences for what is accepted; *findings* in the statement |
| C97 | `chdir`, `tempdir` and the example's directories (`Model/FileUtil`): the file system as a map from absolute paths to directories and files, blocks as arbitrary actions on it, `try`/`finally`; links, permissions and failures of printing are not modelled, and a directory is known by its path | case analysis for any block; induction over nested programs (`Props/FileUtil`); *findings* in the statement |
| C98 | `number_table` of derivations/clustering.py and the two listings of distributions/__main__.py (`Model/Listings`): text as characters, the formatting of one number as a parameter, the models that can be imported as a given list | loop invariant over rows, lemmas on joined lists; grouping by induction over the models (`Props/Listings`) |
| C99 | `operator<<` and `operator==` of repeated fields in io/protobuf.hpp (`Model/Repeated`): loops over checked indices, floats as bit patterns with the comparisons of the IEEE standard, unsigned integers written in decimal; what `<<` writes for floats and for messages is a parameter | loop invariants; the printed form is shown injective by splitting at commas (`Props/Repeated`); comparison of messages through C64; *findings* C99_equal_nan, C99_disagree |

## 5. Findings (claims false of the code, each with a theorem)
* `SparseCounter::merge` counts the total twice (C03), hence DPD group merge (C27).
* `MixtureDriver` with assertions off: negative adds, bad group ids (C08).
* Global ids wrap after 2^32 creations (C10).
* Pitman-Yor with negative alpha relies on the log of a negative number ignoring the sign; with alpha = 0 (admissible for d > 0) every score is NaN (C15).
* LowEntropy: approximation is not a normalised predictive on incomplete samples (C20, C23).
* Normal groups in single precision (C88): adding 11184814 four times and removing it twice leaves a count times variance of -1, and a negative posterior variance if the prior variance is small; the count times variance never exceeds `2^26` times the square of the largest value, so that large groups look too concentrated; merging can move the mean beyond the largest value.
* `NormalInverseWishart` forms its scatter matrix by subtracting products of sums: in single precision, three observations of 4097 with a prior centred there and the identity as prior matrix give a posterior matrix with diagonal -3 (C89). `NormalInverseChiSq` is not affected by additions (C88).
* `sample_from_image` of the mixture example: on an image of one colour every sample is the first pixel; an image one pixel high or wide raises (C90).
* NICH `add_repeated_value` ignores the between-group term; merging two empty groups gives NaN (C26, C27).
* DD `merge` leaves `count_sum` stale (C27, C40, C57).
* BNB score omits the binomial coefficient for r ≥ 2 (C31), so samples do not follow it (C59).
* DD mixture used before `init` (C35); debt groups skipped in mixture `score_data` (C36).
* DPD: removing a nonempty group (C37), clamp mass (C38, C39), `realize` reaching OTHER (C39), message overflow and lost weights (C40).
* NIW: `count * dim` in unsigned arithmetic with negative counts (C41); the sampler returns a covariance already divided by `kappa`, so samples follow the predictive distribution exactly when the posterior `kappa` is 1 and never otherwise (C59).
* Samplers: index of likelihood zero for `u = 0` (C43), empty vector (C44), Dirichlet of zeros (C46).
* `fast_lgamma(NaN)` reads out of bounds (C48); `fast_exp` clamp (C49); negative sample size (C51).
* `fast_log_factorial(2^32 - 1)` wraps to `log Γ(0)` (C69); `fast_lgamma_nu` is off by more than 0.013 at ν = 1 (C70).
* `sample_student_t(dof, mu, Sigma)` of the reference implementation draws with scale `Sigma / dof`, so it disagrees with `score_student_t(x, dof, mu, Sigma)` unless `dof = 1` (C72).
* `sample_wishart` has the wrong mean from two dimensions on, `sample_wishart_v2` always (C72).
* `multinomial_goodness_of_fit` divides by the variance instead of the mean but still drops a degree of freedom: its statistic has mean `k` where `chi2(k - 1)` is used, twice Pearson's for two categories; impossible data get the p-value infinity, which exceeds every threshold the tests compare with; `unif01_goodness_of_fit` raises on a sample of exactly 1 (C73).
* As a consequence the test rejects true hypotheses more often than its level, whatever the number of draws: with three equally likely categories at the level `α` it rejects with probability `α^(2/3)` in the limit (C87).
* `bin_samples` splits equal samples over bins whose ranges do not contain them and raises with fewer samples than bins; `histogram` counts negative samples from the other end (C74).
* `NormalInverseChiSq.score_value` multiplies a logarithm with steps of `2^-14` by half the number of observations. After a million observations the score is constant within 7.5 standard deviations of the mean and the computed density integrates to more than five (C76).
* `GammaPoisson.score_value` multiplies the difference of two table logarithms by the sum of the observations: after a million observations of mean 100 the value 0 gets probability one, exactly below e^-99. `BetaNegativeBinomial.score_value` returns integers only once both posterior parameters reach 2^20 (C77).
* `fast_log_binom(2^24, 1)` is 0 in single precision; `lmultigamma` wraps in dimension 65537 (C78).
* Python wrappers: a loaded Dirichlet-discrete group keeps C++ dimension 0; more than 256 categories overrun the array; DPD groups with values above 2^31 and GP sums of that size cannot load their own dump; DPD counts without weights are lost (C79).
* Python wrappers: negative index and `append` without `init` read out of bounds; iteration ends in `AssertionError`; strided score arrays are silently not written, reversed ones read out of bounds; negative counts wrap (C80).
* Python clusterings: `Mixture.init(model, count_assignments(a))` always raises, and a refused `init` leaves new counts with old scores, so that `score_value` is undefined; negative counts are accepted (C83).
* `add_group` on a Dirichlet-Discrete mixture that was never initialised is undefined, so the example's sequence clear, add_group, init cannot be used with such features (C66).
* Python sampling: a short urn or an empty probability array ends the process; `prob_from_scores` does not check its index; `sample_discrete` ignores strides (C84).
* Reference low entropy: the ratio of sizes is an integer division, so `score_counts` of incomplete samples is too small unless the sizes divide; negative sizes read the partition table from its end, a negative sample size gives an empty sample (C85).
* Low entropy on incomplete samples: the score of a new cluster depends on the sample size alone, but the exact odds also depend on the other clusters; with three of four items no score is right for both clusterings of the first two items (C86_new_cluster_inexact). The scores of incomplete samples are not normalised: the two clusterings of two of three items have more than 1.001 of probability (C86_incomplete_not_normalised, exact value in C86_incomplete_mass).
* Derivation scripts (C92): `two_d_hist` lets numpy choose the range of its cells, so rows are counts only if 0 and N occur (C92_histogram_shifted), and its probabilities add up to more than one (C92_histogram_mass); `coeff4` is computed with order 5, so `gammaln_approx_fourth_order` returns a wrong polynomial (C92_fourth_order); `gammaln_gauss` has `3141592` for pi (C92_gauss).
* Normal-inverse-Wishart sizes (C93): `merge` and `score_value` have no assertion of their own, so a mismatch is undefined in release builds and, where Eigen's checks are off, in debug builds too (C93_wrong_argument, C93_wrong_value_score); `Shared.load` does not validate shapes (C93_load_unvalidated, C93_load_flat).
* Licence tool (C94): every comment before the code is lost (C94_leading_comments_lost); files of comments only get no licence and are emptied by `strip` (C94_comments_only).
* `sample_stick` with a tolerance of 1 or more returns an empty dict (C71).
* `vector_min/max` of an empty buffer (C52); truncated streams (C54); DPD example (C56).
* Python reference: integer division in LowEntropy (C57).
* High-precision code (C61): an unknown DD category below 256 is accepted and lost; a failed DD `load` leaves a dimension beyond the array; DD sampling with no categories reads out of bounds; NICH removal from an empty group wraps the count to 2^64-1; NICH `score_value` returns 0 when `sigmasq` is 0; merging empty NICH groups raises where the C++ gives NaN.
* BNB `sample_group` (C62): lists are drawn with the probability of `score_data` times a binomial coefficient per value, which the score leaves out (`C62_bnb_partial`, `C62_bnb_fails`); exact for `r = 1`. NIW `sample_group` draws lists of the prior with weight 1 on the mean and scale `psi / kappa` (`C62_niw_law`), so it agrees with `score_data` only when `kappa = 1` (`C62_niw_partial`, `C62_niw_fails`). hp DD `sample_group` with no categories reads out of bounds.
* LowEntropy (C63): the sampler is not exchangeable. For a complete data set of three items [0,0,1] and [0,1,0] have the same group sizes and documented weight but different probabilities (`C63_fails`): the correction for unseen items is an ad hoc approximation.
* Messages (C64): classes with repeated fields accept serialisations cut between values: ten of the fifteen bytes of a three-valued Dirichlet-Discrete load as a two-valued one (`C64_truncated_repeated`). Nothing in the messages records the dimension.
* Errors that are caught (C65) leave traces in `SparseCounter::rename` onto a present key (the count is lost, `C65_rename`), in `DPD Shared::add_value` once `beta0` is 0 (the value is counted without a weight, a retry succeeds, `C65_dpd_add`), in `DPD Shared::protobuf_load` (new `gamma`, old `beta0`, `C65_dpd_load`), in `DD protobuf_load` of too many values (`dim` exceeds the array, dumping is undefined, `C65_dd_load`), in `MixtureDriver::init` without an empty group (`C65_driver_init`) and in removing a value a DPD mixture no longer holds (`C65_dpd_mixture_remove`).
