# Design

Formal model (Lean 4.33.0 + single Mathlib modules) of `colinotp/quaternion-sequences`
(`/repo/rust/src`) and machine-checked proofs of the properties in `properties.jsonl`.

## Trusted base

* The Lean kernel. Every theorem depends at most on `propext`, `Classical.choice`, `Quot.sound`
  (`#print axioms`); no own axioms, no `sorry`, no `native_decide`, no `bv_decide`.
* The transcription of the Rust text into the definitions of `lean/Verif/Model/*`. Each definition
  cites file and lines. Nothing was compiled or run from `/repo`.
* The specifications in `lean/Verif/Spec/*`, which do not use the model's helpers.

## What is modelled, and how

| Rust / shell | model | main simplifications |
|---|---|---|
| `sequences/sequence.rs` | `Model/Quat`, `Model/Sequence` | quaternion components are rationals; see Float32 |
| `sequences/williamson.rs` | `Model/Williamson`, `Model/Basic` | `i8` arithmetic wraps explicitly |
| `sequences/equivalence.rs`, `symmetries.rs` | `Model/Equivalence` | hash sets are lists; loops have fuel, proved sufficient |
| `find/find_unique.rs` (reductions) | `Model/FindUnique` | hash order does not enter (C13, C33) |
| `sequences/rowsum.rs` | `Model/Rowsum` | `isize` is `Int`, `as usize` reduces modulo 2^64 |
| `sequences/matching.rs`, `fourier.rs` | `Model/Matching`, `Model/Plan` | floating point is a structure `Fl` of operations |
| `find/find_write.rs`, `sortpairs.sh`, `main.rs` | `Model/FindWrite`, `Model/Split` | text is a list of characters, a directory a list of files |
| `sequences/matrices.rs` | `Model/Matrices` | matrices are lists of rows |
| `sequences/mum.rs`, `product.rs` | `Model/Mum` | complex entries are pairs of rationals |
| `sequences/matrix_equivalence.rs`, conversions in `main.rs` | `Model/Graph` | canonical labelling is a parameter |
| `find/find_naive.rs`, `find_optim.rs`, `find_unique.rs`, `find_williamson.rs` | `Model/Search` | printed lines and counters are the result |
| `sequences/equations.rs`, `find/find_with_rowsum.rs` | `Model/Equations`, `Model/Solver` | an equation is a list of terms; a printer gives the text; a run is its list of writes |
| `main.rs` `main` and its commands | `Model/Program` | `results/pairs` is a tree of texts; a run is a list of writes and a result |
| `main.rs` `main` and its commands, call by call | `Model/Calls` | the calls of `create_dir_all`, `File::create` and `write` in order; a device says how much of each block is transferred |
| `driver.sh`, `pairs.sh`, `sortpairs.sh`, `join_pairs.sh`, `convert_hm.sh`, `convert_qhm.sh`, `pair_file_cleanup.sh`, `countpairs.sh` | `Model/Driver` | functions on the tree; the flag `-s` is in `Model/Slurm`; type and length are words without blanks, slashes or pattern characters; unquoted variables are split into words; `sortpairs.sh` is run by a POSIX shell (no pathname expansion in redirections) |
| printed lines, `result.log`, `collect_results.py` | `Model/Log`, `Model/Table` | measured times and gaps are parameters (`Terminal`); regular expressions are written as functions; times are rationals |
| the test of a candidate with sequences of different lengths (`find_write.rs`, `williamson.rs`) | `Model/Ragged` | only up to the decision whether the candidate is accepted |
| `isize` and `usize` arithmetic on 64-bit words (`rowsum.rs`, `williamson.rs`, `matching.rs`) | `Model/Word` | both kinds of build; a 64-bit machine |
| `main.rs` `find_pqs`, `find_williamson`, `find_williamson_type` and their `_of_size`; `find_unique.rs` `equals`, `contains` | `Model/SearchMain` | the time printed is left out |
| the flag `-s` of `driver.sh` and `sortpairs.sh` | `Model/Slurm` | further words of `SLURM_TMPDIR` name no files; temporary files of `sort` are not modelled |
| transform library | `Spec/Linear` | any computation by linear steps, one rounding each |
| binary64 arithmetic | `Spec/Binary64` | an instance of `Fl`; the transforms are sums from left to right with rounded cosines and sines, not the algorithm of the library; infinities and NaN are one value |
| `rowsum.rs` `swap`, `better_than`, `equivalent` (unused code) | `Model/QuadRep` | |
| single-precision evaluation of the quaternion code | `Model/Float32`, `Model/Single` | a rounding after every operation |

Every definition cites its file and lines. Conventions:

* `Vec<i8>` is `List Int`; `neg8`, `mul8`, `add8`, `wrap8` reduce modulo 256 into -128..127, the release-build semantics.
  `isize` and `usize` are unbounded except in `Model/Word` (C98). Where an underflow, an out-of-range index or an `unwrap` on `None` can be reached,
  the model returns `none` (a panic).
* `&mut` arguments are returned. Recursions and `while` loops whose termination is not structural take a fuel
  argument; theorems show that the fuel supplied is enough.
* `HashSet` and `HashMap` are lists. Where the iteration order could matter, it is a parameter `order`, assumed to be a
  permutation.
* Parallel reductions (`Model.ParSum`) are a relation: any split into segments, any bracketing. Lines printed in
  parallel appear in any order.
* `File::write` is taken to write its whole buffer, except in `Model/Calls` (C110), where a device says how many bytes each call transfers, and in C97, where the files read may end anywhere. One character is one byte in every text that is written (all are ASCII). The sort stage is bytewise sorting of lines (`LC_ALL=C`).
  A directory listing is an arbitrary permutation (`Listing`).
* A process reads the store when it starts. Processes running at the same time perform an arbitrary interleaving
  (`Spec.Interleave`) of their lists of writes. Creating a file and writing its text are two separate writes.
* C84 and C85 use a finer system (`Spec/System`): a process may have read every file at a different time, a file may be
  seen or left behind after any of its lines, processes are killed and started at any time, anything may be deleted, and
  pair files may change in any way. Two processes writing one file each put prefixes of their own text; overlapping
  writes inside one file (which leave holes of zero bytes or mixed lines) are not modelled.

### Debug assertions

`Env.debug` says whether debug assertions are enabled. The assertions that the commands reach are modelled: `main.rs:99`,
`find_write.rs:517` and `matrix_equivalence.rs:82`. The assertions inside the functions of `equivalence.rs`
and the one of `reduce_to_equivalence` are modelled in `Model/Asserted`, beside the functions without them; C108 says exactly
when they fire. Two functions (`equivalent_dual_half_shift`, `equivalent_single_half_shift`) assert about their argument
`seq` where the others assert about the new sequence `s`; C108 shows that this makes no difference.

The model files use wrapping `i8` arithmetic, as a release build does. `Model/Checked` models the functions that compute
with `i8` a second time, with the overflow checks of a debug build (`none` is the panic), and with the panic of the index
into `COPRIMES`. These are the correlations, the equivalence operations, the classes, the canonical forms, the reduction to
representatives, and the construction, dephasing and verification of matrices. C93 relates the two. `Model/Word`
does the same for 64-bit words, for both kinds of build, in the row sums, correlations, keys and verifications; C98 relates it
to the unbounded version.

### Floating point

* `f64` in the matching stage: the functions are polymorphic in a structure `Fl` of operations. `Spec.Accurate` asks that
  the computed values lie within 1/2 of the exact ones, where the code rounds. `FilterSafe` asks that the power-spectrum filter
  rejects no pair whose exact spectrum is within the bound. Exact real arithmetic is proved to satisfy both, so the
  hypotheses are not contradictory. C74 derives `Accurate` from a standard error model `Spec.FloatModel` (relative and
  absolute error `e` per operation, error bounds for the two transforms, magnitudes limited by `B`, infinities and NaN
  excluded by a predicate). C101 proves the model for the binary64 format, rounding to nearest, with transforms that are
  summed directly (`Spec/Binary64`). C103 proves it for transforms computed by any
  linear steps (`Spec/Linear`), in terms of their depth and gain. That the FFT library works this way is **not** proved. C75 and C76 say
  what the model implies for the power-spectrum keys and for the filter. C91 gives an explicit error that suffices
  (`Spec.PreciseEnough`), about `2 · 10⁻¹²` for lengths up to 12.
* `f32` in the quaternion code: `rd` is any rounding that is exact on binary32 numbers (`ExactRounding`). C57 proves that
  the results equal the exact ones. Signed zeros are identified, and infinities and NaN do not occur in these sums.
  C95 extends this to all other functions on `f32`: searches, join, conversions, dephasing, products, operators.
* `Plan` models the process-wide transform plans as cells that remember the first length.

### Assumptions that appear as hypotheses

* `ExactLabelling`: equal labels iff isomorphic graphs (the external crate `graph_canon`), in C46 and C65.
* `Accurate`, `FilterSafe` in C26 and C28; `Numerics` (the filter and the keys of one matching option are right) in C31, C32,
  C33, C62, C65, C78-C80, C85 and C86; `FloatModel` in C74-C76 and C91; `NearestDouble` in C101, C103-C105 and C107; `Transforms` in C103 and C104 (proved for the fast transform in C105). `C28_numerics` proves `Numerics` for exact arithmetic and both
  options, `C75_numerics` and `C91_numerics` derive it from `FloatModel` and `FilterSafe`, `C91_prime` from `FloatModel` alone.
* Lengths: at most 100 where the table `COPRIMES` is used, at most 31 where the symbolic class generation is used, at most 255
  rows for `HM::verify`. Failure is proved at length 32 for every quadruple (`C12_overflow`) and at size 256
  (`C36_wraps`). From length 101 the index into `COPRIMES` panics; the model's operations are total there and
  return no automorphisms, so no theorem about them covers those lengths. `Model/Checked` has the panic (`C93_class_panics`).

### Not modelled

The computation chosen by the FFT library (C103 holds for all by linear steps), overflow of `isize`/`usize` outside `Model/Word` (counters and indices), I/O errors other than those of `write` in `Model/Calls`, short writes outside it (but see C97), process spawning, timing and progress
output of the searches, memory exhaustion, word splitting of unusual arguments in the shell scripts, the lines of `collect_results.py` printed
with `verbose`, the SAT/OPB solver.

## Where the code does not have the property

The theorem named is a proved counterexample or an exact characterisation of the failure. The part that does hold is proved
under the suffix `_partial`.

| id | what happens | theorem |
|---|---|---|
| C10 | alternated negation at odd length leaves the type (the operation lists use the version guarded by even length) | `C10_alternated_odd_fails` |
| C12 | the labels of the symbolic class overflow `i8` from length 32 | `C12_overflow` |
| C18, C32 | reduction of Williamson sequences returns sequences that are not symmetric | `C18_reduction_leaves_ws` |
| C20 | the set-difference reduction loses whole classes | `C20_loses_class` |
| C24 | `has_sorted_rowsums` accepts quadruples the generator does not produce (nothing is lost) | `C24_filter_mismatch` |
| C29 | files are sorted by whole lines but merged by key, so a match can be lost when a key is a prefix of another | `C29_join_loses_match` |
| C36 | `HM::verify` adds in `i8` and accepts wrong matrices of size 256 | `C36_wraps` |
| C93 | a release build gives every quadruple of length 32 the same representative as some inequivalent one, where a debug build panics | `C93_release_merges` |
| C109 | a release build gives every quadruple of length 33 to 63 the same representative as some inequivalent one, and panics from length 64 on | `C109_merges`, `C109_panics` |
| C38 | `HM::dephased` reads the original matrix in its second loop | `C38_dephased_differs` |
| C44 | operators of a dephased matrix are not mutually unbiased in general | `C44_fails` |
| C45 | `HMUO::tensor` records the sum of the sizes | `C45_tensor_size_wrong` |
| C49 | symmetry type IV examines sequences without the symmetry | `C49_type_IV_never`, `C49_type_IV_witness` |
| C52 | the matching table drops the first pair of every key | `C52_first_pair_lost` |
| C54 | quadratic equations use variable `x0` and a difference that is always zero | `C54_violation`, `C54_unsound` |
| C55 | placeholder files are named after sorted row sums | `C55_placeholder_mismatch` |
| C56 | a transform of a second length panics and poisons the plan | `C56_other_length_fails` |
| C59 | the half-integer warning misses negative values | `C59_misses_negative` |
| C60, C17 | an empty list of results panics | `C60_panics` |
| C62 | an unrecognised pairing writes nothing in the split version and the default in the other | `C62_unrecognised_pairing` |
| C65 | conversion of Williamson results panics | `C65_ws_panics` |
| C72 | row sums with the same two best values overwrite each other's equation files | `C72_lost`, `C72_lost_45` |
| C73 | the filter on single sequences compares with the squared bound and rejects nothing | `C73_never_rejects`, `C73_fails` |
| C76 | the filter compares with 4n without a tolerance, so any positive error can discard a valid pair; double precision does at length 8 (sums term by term) and at 16 (fast transform with any factors) | `C76_fails`, `C76_double_fails`, `C105_fails` |
| C80 | the status of every stage of the driver is that of `tee`, so failures end with status 0 and old results stay | `C80_status`, `C80_wrong_arguments`, `C80_empty_pairing`, `C80_ws`, `C80_unknown_flags` |
| C82 | sorting a directory without pair files (for example a second time) creates `*.pair.sorted`, and joining then always panics | `C82_no_pair_file`, `C82_again` |
| C86 | if the pair stage is killed between two row sums, sorting and joining end normally and classes are missing | `C86_silent_loss` |
| C87 | the cross values in QT keys have one sign reversed (nothing is lost, because pairs of QT sequences are amicable) | `C87_fails`, `C87_sign` |
| C90 | the table shows -1 classes for Williamson sequences, adds the time of a repeated join, and counts missing lengths as -1 in the totals | `C90_williamson`, `C90_rerun`, `C90_totals` |
| C97 | the rest of a cut line is taken for a sequence; one letter is a valid sequence of every type, and `write` may write only a part | `C97_convert_violated`, `C97_candidate_violated`, `C97_join_violated` |
| C110 | `write` without `write_all`: a command whose last block is transferred in part ends normally; `rowsums` can leave a well-formed list with row sums missing | `C110_violated` |
| C100 | with `-s` and `SLURM_TMPDIR` not set, `sort` reads the standard input and the pair files are deleted; the driver ends with status 0 | `C100_lost`, `C100_deleted`, `C100_unbuilt` |
| C102 | the equation files use the variable `x0`, which the format does not have | `C102_x0` |
| C114 | if `sortpairs.sh` is killed after it finished a directory and is run again, it creates `*.pair.sorted` there, and joining panics | `C114_again_violated` |

## Properties

Status is kept current in `MANIFEST.json`; below is the plan per property.

| id | model | proof |
|----|-------|-------|
| C01 | `QS.isPerfect` | R(n-t) = conj R(t), half range covers all residues |
| C02 | `QS.isOddPerfect` | same with negacyclic sign |
| C03 | `verifyQts`, `toQs`, `isPerfect` | `to_qs` is linear in (a,b,c,d); components of R(t) are the four conditions |
| C04 | `verifyCrossCorrelation`, `isAmicable` | group ring of C_n, Pluecker identity for P_xy = x y* - y x*, sum of squares |
| C05 | `verifyWs`, `verifyWts` | symmetric implies commuting correlations |
| C06 | `toQs`, `fromPqs` | case analysis on the 16 sign patterns, list induction |
| C07 | codecs | list induction, case analysis on the alphabet |
| C08 | `verify` | range arithmetic, sums over `ZMod n` |
| C09, C10 | `equivalent_*` | reindexing of sums over `ZMod n`; half shifts through amicability |
| C11 | `generateEquivalenceClass` with fuel | finite universe, closure; every generator is invertible inside the class |
| C12 | `generateSymmetryGroup`, `..ClassFast` | operations commute with entrywise odd maps |
| C13 | `willLessThan`, `findMinimum` | lexicographic order |
| C14, C15 | `nsCanonical`, `snSsCanonical` | explicit orbit description, minimality |
| C16, C17 | `qtCanonical`, `reduceToCanonicalReps`, `equiv` | the two subgroups normalise each other |
| C18 | same | negation: concrete Williamson sequence of length 3; partial: outputs stay Williamson-type |
| C19, C20 | `reduceToEquivalence*` | set reasoning; negation for the set-difference version |
| C21 | `expandWts` | coset decomposition |
| C22-C25 | `rowsum.rs` | induction; odometer invariant; sums over `ZMod n` |
| C26, C53 | `matching.rs` | amicability makes both sign conventions agree |
| C27, C28 | exact DFT on `ZMod n` | Wiener-Khinchin |
| C29-C33 | `find_write.rs` pipeline | merge-join invariant for a fixed key; prefix-freeness of keys of true matches |
| C34-C38 | `HM` | block matrices, finite sums; negations by small witnesses |
| C39-C41 | `QHM` | finite sums over quaternions, closure of the alphabet |
| C42 | `sequenceProduct` | CRT reindexing |
| C43-C45 | `mum.rs` | matrix identities |
| C46 | graph of a matrix | neighbourhood argument |
| C47 | `coprime` | Euclid |
| C48, C49 | searches | induction on the remaining positions |
| C50, C51 | writer / parser | induction on lines; decimal encoding |
| C52, C54, C55, C59, C60 | | negations by witness plus the part that holds |
| C56 | global plan cache | state machine over call histories |
| C57 | rounding function | magnitude bound on dyadic rationals |
| C58 | exact PSD keys | C27 + C29; an even integer function with even values, zero at 0 and in sum, whose transform is at most 1 except at one frequency, is zero, so keys of one directory that agree up to the last value are equal |
| C61 | helpers | list/case reasoning |
| C62 | `Model/Split` | the two processes write disjoint files whose union is the single-process directory |
| C63 | `mumProduct` | tensor products of projections |
| C64 | `HM.fromWilliamson`, `equivalent_*` | block permutations and sign changes |
| C65 | `hadamardRepresentatives` | C32 + C46 |
| C66 | result files | C07 on lists of lines |
| C67 | `toString`, `toStringMagma` | injectivity by length and prefix |
| C68, C69 | `convertQsToMatrices`, `qhmWriteAll` | C39, C40, C41 |
| C70 | `verifyQtsEqWts` | C04 |
| C71 | `quadEquivalent` | table of the even permutations; selection sort; lexicographic least element |
| C72 | `findWithRowsum` | paths and contents are injective encodings; last write wins |
| C73 | `filteredDft` | triangle inequality for the transform |
| C74 | `FloatModel` | error propagation through products, sums, inverse transform and division |
| C75 | `pairKey` with PSD | spectra are algebraic integers, so never half-integers; finitely many sequences give a common gap |
| C76 | `boundExceeded` | margin analysis; at odd primes a zero of the spectrum forces a constant sequence (cyclotomic polynomial) |
| C77 | `mainRun` | every write of a command goes to one directory; case analysis on the argument list |
| C78 | `mainRun`, `sortPairsSh` | the last write of every file decides, and it belongs to one process only |
| C79 | `driverSh` | composition of the stages, each as an effect on the files of one directory |
| C80 | `driverSh` | the folder exists after `mkdir`, so `tee` succeeds; frame property of the commands |
| C81 | `countPairsSh`, `writePairsRun` | lines are preserved by sorting; the pairs kept are in bijection with a set of sequences |
| C82 | `sortPairsSh`, `joinRun` | the stray name is invariant under all writes and under sorting |
| C83 | `pairsSh`, `joinPairsSh`, `convertHmSh`, `convertQhmSh` | equality of the two compositions |
| C84 | `mainRun`, `driverSh` in the transition system `Spec.Step` | an invariant on every file, every earlier store and every pending write |
| C85 | `driverSh` | the invariant gives the hypothesis of C79 |
| C86 | `mainRun`, `sortPairsSh` | a prefix of the writes is a complete run for fewer row sums; row sums are invariant up to order and sign for odd lengths |
| C87 | `pairKey` | rigidity as in C58 for auto values; an odd integer function with transform at most 1 is zero |
| C88 | `mainRun`, `driverSh` with the field `debug` of the environment | the assertions are guards before the first write; the row sums of matches are those of the directory |
| C89 | `driverLog`, `collectRow` | every printed line is a template with numbers in the gaps; a line matches a pattern only if one of its fixed parts does (`Shows`) |
| C90 | `scriptsLog`, `joinPairsShLog`, `collectTotals` | as C89; the later stages keep the row-sum directories |
| C91 | `pairKey` with PSD, `boundExceeded` | the norm of a nonzero integer of the cyclotomic field is at least 1, and the conjugates of the values of a solution are bounded by the complementarity; C58's rigidity with a margin |
| C92 | `driverSh` | the 16 letters are the sign vectors in the basis of the outer units; a negation and an exchange are reflections, so a negate-and-swap operation is `x ↦ u x v`; a map that preserves the sign vectors is a signed permutation, and an odd one is not `x ↦ u x v` because conjugation is not; C79 |
| C93 | `Model.Checked` | entries stay in -127..127 under the operations, so no negation overflows; the loops agree step by step; the label -128 occurs from length 32 on; partial inner products of orthogonal rows are at most half the size; at length 32 negating all labels fixes the label -128, so changing the last entry negates the symbolic class |
| C94 | `genSeqRec`, `generateSequencesWithRowsum`, `reduceToEquivalence`, `filterByRowsums`, `generateEquivalenceClass`, `inverseDft` | lists without repetitions and with the same members have the same length; classes depend only on membership; every class has a member with sorted row sums; each operation keeps QT sequences; the error of two transforms is below 1/2 |
| C95 | `Model.F32` | half-integers of bounded size are binary32 numbers, so no operation rounds; the recursions keep all entries in the alphabet; equality step by step, also of the panics |
| C96 | `parseUsize`, `parseIsize`, `parseU8`, `natText`, `intText`, `mainRun` | Horner's rule is `Nat.ofDigits`; a numeral is no command, type, option or pairing |
| C97 | `readLines`, `resultText`, `hadamardEquivalenceFromFile`, `Ragged.joinDir` | a prefix of the text is some complete lines and a part of the next one; the first sequence is compared with the others before anything is accepted |
| C98 | `Word.*` against the functions of the same name | every intermediate value is bounded by a small multiple of the length; the loop over quadruples keeps its entries at most `sqrt p + 1` |
| C99 | `findPqsOfType`, `findWilliamsonOfSize`, `findWilliamsonTypeOfSize`, `contains` | the group of sign changes acts freely and every orbit has one member beginning with (-1,-1,-1,-1); words and quadruples correspond one to one |
| C100 | `driverBatch`, `sortDirBatch` | all sorted files are empty after the sort stage, so the join stage matches nothing and panics; the files left by a failed `sort` are overwritten by the next one |
| C101 | the matching stage with `doubleFl` | every real number has a number of the format within a relative error of 2⁻⁵³; at a prime length the norm of a spectrum value and the arithmetic-geometric mean keep the spectrum away from 0; for `C76_double_fails` all possible roundings are enumerated |
| C102 | `Equation.text`, `termText`, `additionalComment`, `findWithRowsum` | a reader for the format (`Spec/Opb`) is run on the text, word by word and line by line |
| C103 | the matching stage with `libraryFl` | the transforms are terms of `Spec.Lin`; the hypotheses say what they compute without rounding and bound depth and gain |
| C104 | the filter and the matching stage with `doubleFl` and `libraryFl` | as in C101 and C103, at lengths 2p and at all lengths up to 7 |
| C105 | the filter and the matching stage with the fast transform `fastLib` | the transform by definition; factors of the length; lengths up to 180, and 16 for the failure |
| C106 | `collectResults` | readers for the two layouts (`Spec/Table`): words, fields of fixed width, cells between `&`; a cell is a decimal numeral nearest to the value |
| C107 | the pair stage, the join, `findWriteQuadSeq`, `driverSh` | `Spec/Kept`: the class has a member with generated row sums and kept pairs; spectra that add up to exactly `4n` |
| C108 | `Asserted.equivalences`, `generateEquivalenceClass`, `generateEquivalentQuadSeqs`, `reduceToEquivalence`, `findUnique`, `qhmWriteAll`, `expandWts` | `OfType`; the functions of a release build, specified by C09, C11, C12, C19 |
| C109 | `reduceToCanonicalReps`, `generateEquivalenceClassFast`, `joinPairs` | the 8-bit labels of lengths 32 to 63 are not 0 and name positions below 128 (a kernel-checked table of all labels and lengths); the product of all entries (even length) and the sum of the squared row sums (odd length) are invariants of the equivalence that the unread entries change; 256 is stored as 0, which names sequence number 4 or above |
| C110 | `Calls.main`, `Calls.perform`, `Calls.room`, `Calls.limit` | the program as system calls refines `mainRun` (same result; with full transfers the same store), command by command; on a device with little room the store is that of the calls cut after R bytes, by induction on the calls |
| C111 | `runProgram` | every write of a run meets an existing directory; writes to existing targets commute unless they have the same target, and then the later one wins; so a list of writes done after a prefix of it with other texts gives what it gives alone (induction from the right). The second run reads what the first read, since no command writes a file that it reads. For the driver: after the flags the directory has no subdirectory, pairs and sorting make subdirectories that depend on the arguments only, and the writes of join and the conversions go to different files, so each is a no-op on the final store |
| C112 | `Calls.run` | the calls a device performs are a prefix of the calls of the command with cut blocks; command by command, such a list of calls does what a prefix of the writes of the command does with other texts (`Proofs/Recall`, `KRef`), which is the hypothesis of C111 |
| C113 | `driverSh` | the stages before `join` write only into directories of row sums, which the next run removes; `join` and the conversions write different files and none writes a file that an earlier one reads, so each does again what it did, and the writes of the command that was cut are absorbed as in C111 (`Proofs/Interrupt`) |
| C114 | `sortPairsSh` | a file that is sorted again absorbs what was begun, and the pair files left are those not removed; finished directories have none, as in C82 |
| C115 | `mainRun`, `driverSh` | a relation between two runs, preserved by every step; the text of the matrices is the concatenation of blocks of lines that are mapped one by one |
| C116 | `joinPairs`, `joinRun` | every step maps permuted lists to permuted lists; the symmetry group depends on the length only, which the canonical forms keep |

## Tests of the theorems

`tools/mutate.py` copies the project outside the repository, applies one edit to a model definition, rebuilds, and appends the
declarations that fail to `seeded/LOG.jsonl`. A build failure shows that some proof depends on the edited line. It does
not by itself show that a weaker but still true theorem was refuted, so each entry names the claim the edit breaks.

## Tests of the model

`tools/conform.py` runs the model of `driver.sh` (`lean/Verif/Test/Conform.lean`, double-precision numbers of the machine,
Williamson-type sequences) and compares the texts it leaves with those kept in `/repo/wts-results`. For lengths 1 to 5 every
file agrees up to the order of directories and hash sets: `result.log` (times replaced by a star), `result.seq`, `result-qts.seq`, the
two `.qseq` files and `result.qhm`. The canonical labelling is not computed, so the model keeps a single
matrix, which is one of those in `result.mat`. This is a test and no theorem depends on it.

`lean/Verif/Props/RepoExamples.lean` evaluates in the model the assertions that the unit tests of the repository make on
concrete inputs, and the outputs their comments give. `#guard` evaluates with the interpreter where the kernel is too slow.
All agree, but for a comment in `test_different_products` that calls a sequence `+YIQ`; by `quad_to_quat` it is `+JiQ`, which is not perfect. The
six assertions of `check_equiv_eight` were evaluated the same way outside the build, because each takes 20 seconds.
Assertions about files that are not in the repository have no counterpart; C94 proves their general content.
