# Formal model of shaih/cpp-lwevss in Lean 4

The C++ sources are in `/repo` (pinned commit).  The model and the proofs are in
`/verif/lean/Verif`.  `properties.jsonl` lists the properties (C01, C02, ...),
`MANIFEST.json` says which theorems prove them, `AXIOMS.md` lists the axioms each
of these theorems depends on, and `seeded/LOG.jsonl` records the seeded-bug
experiments.

## 1. Layout

* `Verif/Model/*.lean`  - the model, function by function.  Each definition cites
  the file and lines it models and says where it simplifies.
* `Verif/Spec/*.lean`   - small independent specifications used in statements.
  They do not use the model's helper functions (beyond its data types).
* `Verif/Lemmas/*.lean` - helper lemmas (not part of any statement).
* `Verif/Props/*.lean`  - the property theorems, named `Cnn_...`, each with an
  `example` showing that a concrete case satisfies the hypotheses.

## 2. Modelling conventions

* **Outcomes.** `Res α = ok a | throw | ub`.  `throw` is a C++ exception or a
  failed `assert`/NTL error; `ub` is undefined behaviour (out-of-bounds access,
  dereferencing `end()`, signed overflow, use of an uninitialised value, ...).
  The two are different outcomes, so a theorem that says a call returns `ok`
  excludes both.
* **Scalars** are elements of an arbitrary field `F` in the proof-system modules
  (the code's scalars are Z_P; C59 proves that P is prime and that the
  byte-level scalar operations are those of the field) and of `ZMod q`, `q`
  prime, where integer representatives matter.
* **Ring elements** (`ZZ_pE`) are coefficient vectors with multiplication modulo
  X^ell+1.
* **Points** are elements of an arbitrary `F`-module `G`: the prime-order
  subgroup.  C62 connects the byte-level point operators to such a group, given
  libsodium's documented contract.
* **Maps and sets** (`std::map<size_t,Scalar>`, `std::set<size_t>`) are lists
  sorted by strictly increasing key.
* **Merlin** transcripts are an arbitrary deterministic state machine in the
  proof-system modules, so the theorems hold for every hash function; the
  concrete STROBE-128 code (merlin.c) is modelled separately, byte by byte
  (C50-C53, C60, C61), and C82 instantiates the proof system with it.
* **Randomness** is an explicit argument, universally quantified.  Statements
  about probability are counting statements over all coins.
* **Zero challenges.** The code throws when it has to invert a zero challenge.
  No theorem assumes that the hash never returns zero (libsodium's reduction
  does on some inputs): `Spec/Honest.lean` writes down the challenges a prover
  meets in its own run, and success is proved to be equivalent to those being
  nonzero.
* **int / size_t arithmetic** is explicit wherever the value can leave its
  range (indexes, `setIndexes`, `interval`, lengths of labels, ...).

## 3. What is modelled, property by property

| property | modelled code | proof |
|---|---|---|
| C01 | `next2power`, `log2roundUp` (utils.hpp) on 64-bit words | bit-vector smear lemma; induction on the exponent |
| C02, C03 | `subsetProduct`, `expSubsetProduct`, `foldGenerators` | strong induction on n |
| C04, C05 | pedersen.hpp `commit`, `commit2`, `verifyCom`, `verifyCom2` | module algebra |
| C06-C12, C14 | bulletproof.cpp: all provers and verifiers, flat statements, tag-level wrappers | loop invariants by induction on the number of folding levels |
| C13, C57 | the verifiers, on trees of accepting transcripts | extractor by induction on the tree |
| C58 | the quadratic verifier for n not a power of two | explicit forger, proved accepted |
| C15-C22, C55 | all of constraints.cpp on sorted association lists, iterators as list tails, priority queue with arbitrary tie breaking | induction on lists; root counting for C16 |
| C23-C25 | shamir.cpp `computeKernel`, `newSharing`, `lagrangeCoeffs`, `getSecret` | Lagrange interpolation |
| C26-C29 | ternaryMatrix.hpp/.cpp, challenge-matrix buffers | case split over bytes lifted to all inputs; induction on rows |
| C30, C31 | foursquares.cpp | Cornacchia's algorithm, residue analysis |
| C32, C36-C41, C56 | regevProofs-utils.cpp, utils.hpp | integer and ring algebra |
| C33-C35 | regevEnc.cpp key generation, encryption, decryption, decoding, parameters | integer arithmetic, Cauchy-Schwarz, real analysis |
| C42-C44, C63 | regevProofs.cpp `aggregateProver/Verifier`, `flattenLin*`, `flattenQuad*`, `enforceNorm`, `expandPublic` ... | symbolic execution of each step; polynomial root counting |
| C43 | regevProofs.cpp `proveDecryption/Encryption/KeyGen/ReShare/Smallness` | symbolic execution, ring algebra |
| C45-C49 | scalar25519.hpp, merlin.hpp, curve25519.cpp byte helpers, samplers, labels | integer arithmetic |
| C50-C53 | merlin.c (STROBE-128), merlin.hpp wrappers | invariants over all operation sequences; parser for injectivity |
| C54 | `operator<<`/`>>` of proofs (bulletproof.cpp:469-525) on a byte-stream model | exact characterisation |
| C59, C62 | scalar25519.hpp and point25519.hpp operators on bytes | Pratt certificate for the primality of P; libsodium contract |
| C60, C61 | `keccakf` of merlin.c | bit-level refinement to FIPS 202; inverse of each step |
| C64, C65 | main.cpp:100-250 and the constructors, `prepareForNextProof`: whole rounds | composition; induction over histories |
| C66 | the inputs of a round made by the library's own `keyGen`, `encrypt`, `decrypt`, `newSharing`, `lagrangeCoeffs` | composition of C23, C34 and C64 |
| C67 | the norm bounds computed in the constructor of `VerifierData`, as real-valued formulas with a tolerance for doubles | real inequalities from the parameter formulas of C35 |
| C68 | the smallness test (regevProofs.cpp:667-767): the set of challenge byte strings with a short reply | counting: flipping a bit of the row of the large coefficient changes the reply, column by column |
| C69 | batching with powers of a challenge (regevProofs.cpp, expandConstraints), over the ring `Z_P[X]/(X²+1)` | the two evaluation maps at the roots of X²+1 (or a norm argument where there are none), then root counting |
| C70 | compression by the challenge matrices (regevProofs.cpp:39-600): the set of challenge byte strings for which some digits fit | flipping the 128 bits of one row or column of the matrix: the strings of one orbit that fit differ in few places (ball around a point) |
| C71 | `proveDecryption` with the bounds of `VerifierData`, against `decodePtxt` | C43 for both plaintexts with noises (0, 2^125) and (-1, -2^125); the numbers from C67 |
| C72 | the proof functions and a whole round as functions of the ciphertext and the key | each result depends on the vector through one inner product (closed under bind); kernels of additive maps into a group of order P^2; counting of small openings |
| C73 | the state after a whole round (Model/Driver.lean) with arbitrary inputs of the right lengths | the meanings of the recorded constraints (C43) put together over the five functions; C69, C70 and C68 for the good challenges, C67 to go from the field to the integers. Starts from values that satisfy the constraints: that the final quadratic proof guarantees such values is not claimed, because its length 2601 is not a power of two (C58) and the first norm constraint is dropped (C63) |
| C74 | constructor of `GlobalKey` with its fixed-size seed buffer, `setKeyHash`, `operator==`; the hash and the generator are arbitrary functions (Model/KeyHash.lean) | the hashed message is an injective encoding of matrices of equal dimensions; a square matrix determines its dimension; counterexamples for shapes, stale fingerprints and `==` |
| C75 | `checkQuadCommit`, `checkLinCommit` with the insertions of `std::map::operator[]` (Model/CheckCommit.lean) | C04 for the opening; induction over the indexes for the map; C64 for prepared rounds |
| C76 | the samplers of regevEnc.hpp as functions of their random bits, unsigned arithmetic included (Model/Samplers.lean) | counting the bits that give each value, by bijections |
| C77 | `divCeil`, `log2roundUp`, `conv`, `innerProduct` and the overloads of `balanced` with their static variables (Model/AlgebraUtils.lean) | integer arithmetic; induction over the loops; the static variable is part of the state |
| C78 | `std::stoi`, lines 48-54 of main.cpp, and the program from the command line on (Model/Arguments.lean) | the text is split as the parser does; the dimension by monotonicity of the rounded-up logarithms and rational bounds on log 2 at the ends of the ranges; C66 for the outcomes |
| C79 | `Point::init` and the static variables of curve25519.cpp (Model/PointInit.lean); libsodium by its contract | unfolding, with the contract of the library |
| C80 | the provers of bulletproof.cpp with all their randomness (Model/Bulletproof.lean), commitments | the folding loop is inverted level by level: given the points, the coins are determined (induction over the levels), then the last step is solved with the verification equation; a permutation is assembled from the one-element fibres. The theorem is exact for scalars drawn uniformly from the whole field; libsodium's sampler never returns zero, which changes each probability by a factor of about 2^-252 per coin |
| C81 | one trial of the loop of `proveSmallness` with all its randomness (Model/RegevProofs.lean: smallLoop), the sampler of masks, the bounds of `VerifierData` | the randomness of the commitment is determined by the commitment and the mask (the base point generates the group), the mask by the reply coefficient by coefficient (C76_bounded); counting gives products; the distance of two products of distributions is bounded factor by factor (Lemmas/Hybrid.lean) |
| C82 | the environment built from the concrete transcripts (Model/Merlin.lean) on the states they reach, the 32-byte encoding and reduction of scalars; point functions stay parameters (Model/Library.lean: libEnv) | every reached state satisfies the sponge invariant of C50, so every operation succeeds; the derivation of the verifier is followed message by message (Spec/Library.lean: linMsgs, quadMsgs, answer); the encoding of traces is injective (C51), the messages of the levels are decoded from the front |
| C83 | the prove functions, aggregation and final set-up as modelled for C43, C42 and C64, with the library's transcripts of C82 (libEnv) | the explicit messages of a round are in Spec/RoundMsgs.lean; the challenges and the final state of a round (round_meaning) are followed message by message with the At lemmas of C82; binding: count the requests, then decode the lists from the front, the masked reply by its end marker, and C51 |
| C84 | the aggregation, flattening and verification as for C42 and C63; the verifier's own flattening (Model/VerifierSide.lean); a cheating prover (Spec/RoundForgery.lean) | (1) the forger of C58 carried over to verification with offsets, and composed with the public statement (publicStatement_spec) and honest linear proofs; (2) the final equation of C63 is affine in each value of the old key, with slope rho times its aggregated coefficient |
| C85 | the Shamir functions of C23, the encryption of C34 and the resharing constraints of C43, composed into handovers between committees (Spec/Handover.lean; the repository has the parts but no program that runs more than one handover) | the Lagrange combination of valid sharings is a valid sharing of the combination of their secrets; induction over the history; encryption drops out by C35, constraints by C24 and C43 |
| C86 | the view of corrupted members over a history (Spec/HandoverView.lean) | translation of all coefficients by fixed polynomials: 1 at 0 and 0 at the corrupted points, times the difference of the secrets; induction over the history |
| C87 | the verifier's side of a round (publicStatement, finalStatement) and trees of accepted linear proofs (Spec/Soundness.lean) | C13 applied to the flattened statement; the extracted opening is compared with the given one coefficient by coefficient. The converse needs that every opening is extracted from some accepted tree: C13_linear_tree (and C57_quadratic_tree for quadratic proofs), by building the honest tree level by level |
| C88 | a round without the smallness proof (Spec/Hiding.lean `recordRound`; `proveRound_eq` relates it to the model of main.cpp) and the aggregation with the final proofs | two runs with equal commitments leave equal public states and had equal scalars (run by run through the three prove functions); the map from scalars to commitments is total and injective between finite sets of equal size, hence bijective. The final proofs: the coins are recovered from an accepted proof level by level (C80, generalised to the verifier's offsets) |
| C89 | the decoding of challenge bytes to ternary matrices, the three prove functions with the challenge bytes as argument (Spec/Tail.lean `answering`), the driver up to the smallness proof | exponential moment: the sum over all matrices of exp(t·|xA|²) is bounded by writing the exponential of a square as a Gaussian integral of exponentials of linear terms (`gauss_shift`), which gives the count `tail_count`; the map from bytes to cells is a bijection (`cells_bijective`). Then the bounds: C67_digits_fit, C35 (noise of decryption), rejection sampling; union bound over six independent matrices (`Rare.or`) |
| C90 | the rejection loops with their random bits as finite tables (Spec/GiveUp.lean) | exact counts by induction on the number of trials (`card_split`, `card_cons`); one trial by a counting form of Chebyshev's inequality with the exact mean and variance of the square of a number of n bits (Lemmas/Chebyshev.lean); union bound over parties (`Rare.any`). The loops for e1 and e2 count each trial twice, so only 25 of the intended 51 trials are made: the bound for few parties is therefore weak |
| C91 | the randomness of the 100 trials as a finite table (Spec/SmallGiveUp.lean) | exact counts from C81 summed over the commitments; the honest vector by Cauchy-Schwarz on its ten blocks of 260, each of squared norm at most bound²+4 (Lemmas/SmallVector.lean), compared with B_smallness/128; rate from 128/129 to the power 128. Restriction: the group is the one generated by the base point, as for C81 |
| C92 | the four challenges of the aggregation answered with given bytes (Spec/Enforced.lean) | averaging, three times, from the special-soundness form C63_enforced; challenges for which the aggregation throws (r2 = 0, or the last variable cancels) are counted as misleading; lifted to 64-byte strings as each residue has at most ⌊2^512/P⌋+1 preimages |
| C93 | the generator of blinding factors as operations of the sponge (Spec/Blinding.lean), its wiping (Model/RngWipe.lean) | the calls are followed one by one with the sponge invariant of C50; the list of operations is decoded from the front (the flags and cells of the second operation of each pair tell messages, challenges, secrets and the end apart); the last block holds the entropy, and keccakf is injective (C61) |
| C94 | the low-level provers and the linear verifier once more, returning the final contents of the caller's arrays without cutting them (Model/InPlace.lean); entry-wise contents as sums over indices (Spec/InPlace.lean) | by induction over the levels: the in-place loop and the cutting loop of C06/C08/C11 take the same steps, and the contents satisfy the recursion of one level; folding the leftover vector once more adds each product once per challenge in it |
| C95 | the ternary products once more, with the memory of the result and a flag that it is the operand itself (Model/TernaryAlias.lean) | apart: the loops equal those of C27/C28; shared: the operand is cleared before it is read, so a vector of zeros is invariant, and `M·A` overwrites only columns it has already read |
| C96 | the functions of naive.cpp, pedersen.hpp and bulletproof.cpp once more in a monad with `Point::counter` and a second count of the products that are not counted (Model/Count.lean); the counter is a natural number, not a `size_t` | `Counts p q N`: outcome of `q`, and counted plus uncounted products are `N`; it composes along binds; induction over the folding levels |
| C97 | the two low-level verifiers with points as bytes and the operators of `Point` that can throw (Model/PointBytes.lean); `CurveOk`: libsodium's contract for arbitrary bytes (`add` needs points that decode, `scalarmult_noclamp` needs the canonical encoding of a point of the main subgroup); scalars are residues | refinement on encodings; on acceptance inversion of every operation from the final comparison backwards; for safety every read is in bounds |
| C98 | the two low-level verifiers once more, with the scalars of the proof as bytes too (Model/ProofBytes.lean); `IgnoresTopBit`: `scalarmult_noclamp` clears the top bit of the scalar (libsodium: `t[31] &= 127`), while `scalar_mul`/`scalar_add` reduce all 256 bits | refinement when the bytes stand for a residue; in general the first position of the subset products is the raw response, so the result is that of the residue verifier with an offset `topErr` added to the first offset |
| C99 | the public verifiers on byte proofs (Model/TagBytes.lean) and the verifiers of C98 | forgery: the honest prover on vectors with `2^255` (`2^256`) added to the first entry, whose response is then written with the top bit set; extraction: `linTreeR_tree`/`quadTreeR_tree` turn a tree of byte conversations into a tree of C13/C57 (for linear proofs by picking two of three answers with the same error, which then goes into S; for quadratic ones for a shifted commitment) |
| C100 | the same functions as C09 | exact characterisation from `proveQuadratic_spec` and the verifier equation, for two vectors chosen after the challenge; the forgery is the case v = 0; root counting for vectors fixed before the challenge; 2 is no square modulo the group order by quadratic reciprocity |
| C101 | decryption, key generation, the whole round of proofs and its bounds (C33, C36, C70, C73) | the decryption noise is -(noise.r + e2 - sk.e1), bounded by Cauchy-Schwarz from the key generation's norm checks and the bounds C73 gives; numeric bounds of the library for 256, 512 and 1024 parties; the secret by C23/C24 |
| C102 | the decryption proof and the whole round for a dishonest party (Spec/WrongDec.lean says what its inputs are) | the wrong noise differs from the honest noise by one step g of the encoding in one place; the compressed difference is the weight of one row of the challenge matrix times the norm of g, and the weight has an exponential tail (moment bound); honest part by C89; the wrong inputs meet the equations of an honest party, so C64 and C91 apply |
| C103 | `setParams`, the bounds of the `VerifierData` constructor and `ceil(sqrt(..))` with the operations of an abstract machine (Model/Doubles.lean), whose contract is IEEE 754 rounding to nearest and a bound on the errors of the logarithms and of NTL's `RR` (Spec/Doubles.lean) | the set of doubles is finite, so nearest doubles exist; relative errors of rounding are at most 2^-50 and add up; the exact values are far from the integers where a ceil would jump |
| C104 | the verifiers `verifyLinear`, `verifyQuadratic` against a prover that is any function of the challenges so far (Spec/Convince.lean); `PlayedBy` says that a tree of conversations comes from running that prover | counting by induction on the rounds: without a tree with d branches at each fold and e at the leaf, at most ((d-1)k+(e-1))·μ·N^k of the N^(k+1) sequences convince; then C13 and C57. Converse: the honest prover with the opening convinces for all nonzero challenges. Limits: the prover is interactive (its challenges are given to it; for a prover with hash queries see C105); the uniformity of F (ν) is a hypothesis; that each scalar comes from at most 2^260 of the 2^512 strings is proved |
| C105 | the verifiers with the transcript replaced by a random function of its history (Spec/FiatShamir.lean: `oracleEnv`), against programs that evaluate the function (`Program`); `OutputBy` says that each conversation of a tree is an accepted output of the program for some function | a value is bad at a place if it completes a tree below that place although too few values do; each place has at most max(ν,(d-1)μ,(e-1)μ) bad values, which depend on the function at shorter histories only; without a tree every accepted output makes the program or the verifier meet a bad value; counted over all functions on a finite set of places by resampling one place at a time; then C13 and C57. Limits: the transcript is idealised (other properties treat Merlin itself); that trees exist among the outputs is proved, not how fast they are found; statement, tag and earlier contents of the transcript are fixed before the function is chosen (see C106), the commitment is not; lengths of quadratic statements are powers of two; injective point encoding and the number of strings per generator are hypotheses |
| C106 | C105 with programs that output tag, constraint and proof, against the public verifiers | the proof of C105 is for families of statements whose absorbed bytes determine the statement (prefix-free); C52 gives this for constraints with indexes below 2^32 (linear) and 2^64 (quadratic). Limits: as for C105, without the fixed statement; norm proofs are not covered |
| C107 | the library's environment (C82: Merlin over Keccak) against `oracleEnv` with the function that Merlin computes; the spec `historyOf`, `absorbedBefore` | a state of the library is recovered from a history by replaying it, which commutes with all transcript operations; so the derived challenges agree, and by C11 the verdicts; the traces are injective by C51; then C106 with the library's scalars. What remains idealised in C105–C107 is only that this one function behaves like a random one; the points (libsodium) are parameters |
| C108 | `prettyPrint`, `operator<<` for sets, `balanced(CRV25519::Scalar)` (utils.hpp), `printScalar`, `printSvec`, `printElement`, `printEvec` (algebra.hpp), `debugPrint` (constraints.cpp) as functions to bytes (Model/Print.lean); streams with default flags that do not fail | decimal numbers are followed by non-digits, so each text has one reading; `balanced` is the residue of least absolute value; an empty vector is undefined behaviour (§5, 37) |

## 4. Trusted base

* **Lean's kernel** (4.33.0), and the Mathlib definitions that appear in the
  statements (`ZMod`, `Module`, `Finset` sums, `Real.log`, ...).
* **Axioms**: `propext`, `Classical.choice`, `Quot.sound` at most; `AXIOMS.md`
  lists them theorem by theorem.  There is no `sorry`, no own axiom, no
  `native_decide`, no `bv_decide`.  Finite tables (square residues mod 10080,
  Keccak offsets, ...) are checked by `decide`, with the kernel.
* **The correspondence between the C++ text and the Lean model**, by inspection,
  with citations in the comments.
* **Contracts of libraries that are not modelled**:
  * NTL: `ZZ` is ℤ, `ZZ_p` is ℤ/P, `SqrRoot`, `Jacobi`, `PowerMod`, `PrimeSeq`
    compute what they say; the rows `kernel` returns generate the left kernel
    (only C24_rows and C66_run_exists need that they are a basis);
    `ProbPrime` is an arbitrary predicate (where soundness is needed:
    `NoFalsePrimes`, it accepts no composite).
  * libsodium: `SodiumOk` (Spec/Point.lean) states the documented behaviour of
    `crypto_core_ed25519_*` and `crypto_scalarmult_ed25519_*_noclamp`,
    including their rejection of the identity.  Hash to curve is a parameter.
  * The C++ standard library containers and streams.

### Not modelled

* Concurrency: the library's `multiExp` is the mathematical multi-exponentiation
  (the code delegates it to a sequential loop); there are no threads in the
  modelled code paths that share state.
* The cofactor: except in C97 `G` is the prime-order subgroup, while `Point` can hold any
  bytes.  The library itself checks subgroup membership nowhere; that the verifiers
  nevertheless accept only points of the subgroup (C97) rests on libsodium's scalar
  multiplication refusing all others, which is part of the contract `CurveOk`.
* Timing (the number of exponentiations is modelled: C96), memory consumption, exceptions thrown
  by allocation.  This includes the stack: the
  variable-length arrays `prods[n]`, `xes[logN]` (dlproofs) and `bytes[nBytes]`
  (`TernaryMatrix::random`) always fit in the model; `prods` takes 32 bytes per variable.
* Doubles: C103 models the computations with doubles under a contract: IEEE 754
  rounding to nearest for conversions, +, -, *, / and sqrt, relative errors of at
  most 2^-40 for `log` and `log2` and 2^-100 for NTL's `RR`.  That the hardware, libm and
  NTL meet the contract is assumed.  The other theorems use `setParams` in exact real
  arithmetic (C103: the same for 256, 512 and 1024 parties) and take the bounds of the `VerifierData`
  constructor as inputs (`Params`), constrained by `ParamsOk` or `Precise`; C67 and C103 show
  that what the constructor computes meets these constraints.
* Tests, and the timings and messages that the program prints.
* Computational assumptions: soundness theorems (C05, C13, C57) end in "or else
  a non-trivial relation between the generators"; that such a relation is hard
  to find, and that the hash behaves as a random oracle, is outside the model.
  C104 counts challenges for an interactive prover, C105 counts random
  functions for a prover that evaluates the function a limited number of times.
  Running times (of provers and of the search for the conversations) are not
  modelled.

## 5. Where the code disagrees with the desirable property

Each of these is proved of the model with a concrete or general witness.

1. **Quadratic proofs are forgeable for every length n > 1 that is not a power
   of two** (C58; bulletproof.cpp:342-395): the verifier's one-shot equation
   gives a prover a free generator.  The final quadratic statement of the
   library always has 2601 variables.  For n = 2^k the proofs are special sound
   (C57).
2. **The generator of the extra variable w is shared** (C44;
   regevProofs.cpp:1104-1107).
3. **The norm of block 0 is not enforced** (C63; regevProofs.cpp:1037-1038): the
   powers used as challenges start with u^0 = 1.
4. **Written proofs are not read back** (C54; bulletproof.cpp:469-525): no
   separators; uninitialised count when the stream holds no white space.
5. `newTernaryMatrix` draws too few bytes when the number of columns is not a
   multiple of 4, and `setFromBytes` reads past the end (C29); `proveEncryption`
   inherits this (C43_encryption_defined).
6. `decompose4` fails on 71 and on infinitely many other numbers (C31), and
   `pad2exactNorm` does not notice (C32).
7. `intFromBytes` sign-extends (C45); `conv(Scalar,BigInt)` drops the sign (C45).
8. `operator%=` is wrong for (P-1)/2 (C46).
9. `ZeroOneScalar` leaves old data in its storage (C47); `setInteger(LONG_MIN)`
   overflows (C48); `baseTimesScalar(0)` throws (C62).
10. `commit(SVector,...,from,...)` writes out of bounds for from > 0 (C56);
    `powerVector` of length 0 (C41); `addRange2Set` across 2^31 (C40).
11. `QuadConstraint::operator+=` is undefined on interleaved index sets (C19);
    `makeAlmostDisjoint` overflows at 2^31-1 (C22); the indexes of linear
    constraints are truncated to 32 bits in the transcript (C52); generator
    labels repeat modulo 2^32 (C49).
12. `merge` drops a constraint without terms, including 0 = 1 (C15).
13. `encrypt` does not check that every key is registered (C38).
14. `proveEncryption` starts its last linear constraint from whatever an earlier
    call left there (C43_encryption_stale); `proveKeyGen` reads row `pkNum` of B
    without a range check.
15. A second `merlin_rng_random_bytes` call always fails an assertion (C50).
16. With the program's default of 512 parties the dimension is 2982, not a
    multiple of 4, so because of item 5 no run of the program gets past the proof
    functions without an exception or an out-of-bounds read
    (C66_default_run); with 256 or 1024 parties it can (C66_good_run).
17. Empty witnesses make the tag-level provers read outside their arrays (C14).
18. The smallness test replies with 128 numbers (LINYDIM), but they come from 64
    columns of ring elements, and its soundness error is exactly 2^-64 for some
    vectors, not 2^-128 (C68_tight).
19. The bound on the compressed decryption noise is about 2^130, because it
    allows for the sum of many noises, while decoding corrects noise below
    2^125 in each ciphertext. A decryption proof for a ciphertext with noise
    2^125 therefore succeeds for two plaintexts, one of which is not what
    `decrypt` returns (C71_ambiguous). Such ciphertexts
    do not get through the encryption proof when the keys are made by the
    library (C101_round). For keys that were only proved, C73 bounds the
    single coefficients of secret and noise and not their norm, which is not
    enough for C101.
20. The ring is not a field, so batching m equations with the powers of one
    challenge has error (m-1)/P and not (m-1)/P^2 (C69_tight). This is still
    negligible.
21. The statement is not part of the transcript: ciphertexts, public keys and the
    commitment to the old secret key are never absorbed, and the constraints,
    which are absorbed only after aggregation, contain them through a few
    numbers. So the challenges do not depend on what is being proved, and the
    proof of an honest round is at the same time a proof for most vectors that
    agree with the ciphertext (or key) in one inner product, which are no
    ciphertexts at all (C72_program). The bounds of C69 and C70 assume that the
    statement was fixed before the challenges were drawn, which the code does not
    enforce. C83 gives the exact list of what is absorbed; the commitment to w is
    not in it either (C83_w_free, C83_not_bound).
22. A tag longer than 61 bytes makes the key of the hash longer than it accepts; the
    error is ignored and the CRS fingerprint is uninitialised memory
    (C74_constructor). Global keys are equal when their tags are, whatever their
    CRS (C74_equality); the fingerprint of the public keys is not refreshed by
    `addPK` (C74_stale) and does not bind the shape of the matrix (C74_key_shape).
23. `checkQuadCommit` and `checkLinCommit` are called checks but insert zero
    entries into the witness, after which the loose check of a constraint can
    change its verdict from false to true (C75_side_effect).
24. With its default of 512 parties, and for all but 171 of the 4065 numbers of
    parties it accepts, the program cannot get through its proofs (C78_outcomes).
25. `sodium_init` returns 1 when the library is initialised already, and
    `Point::init` takes any non-zero code for a failure, so a program that
    initialises libsodium itself before this library's static initialisation is
    terminated (C79_already).
26. The overloads of `balanced` keep half of the modulus of their first call; after
    a change of the modulus they are wrong (C77_latched).
27. `proveQuadratic` does not check that its final challenge is non-zero; if it is
    zero, the proof contains the folded witness (C80_quadratic_zero).  `verifyLinear`
    checks it, `verifyQuadratic` does not.
28. The masks of the smallness proof are zero twice as often as any other value (the
    sampler draws a magnitude and a sign), so a reply that equals the unmasked
    product is 2^128 times as likely as one that differs everywhere.  The reply hides the
    vector statistically (C81_hiding) but not perfectly (C81_not_perfect).
29. Consequence of 21 and of C58: acceptance of the final proofs of a round implies
    nothing about the committed values. The quadratic proof of main.cpp has 2601
    entries and can be forged for any committed values (C84_round_forgery,
    C84_accepted); and if the commitment to the old key is not fixed beforehand, it
    can be chosen after all challenges so that honest proofs of violated constraints
    are accepted (C84_old_key_last).
30. The blinding factors labelled "UV" of a quadratic proof are derived from the
    transcript and the entropy alone: with no secrets, `newBlindingFactors` ignores
    its label (C93_no_secrets).  They are as good as the entropy, where the other
    factors also depend on the witness.

31. `verifyLinear` (the low-level overload) overwrites the coefficients and the offsets it is
    given.  A second call with the same arrays is a call with another statement: an accepted
    proof is then rejected unless a sum of products of challenges vanishes (`C94_verify_again`).
    The header says that the arrays are modified; the comment of `verifyQuadratic` says the same
    of that function, which in fact modifies nothing.

32. The product functions of `ternaryMatrix.cpp` take the result by reference and clear it
    before reading the operand.  `leftVecMult(v,v,M)` and its relatives therefore return zeros
    without an error, and `rightMatMult(A,M,A)` with a `TernaryEMatrix` returns another product
    (C95).  Nothing in the headers excludes such calls; the library itself makes none.

33. The scalars of a proof are read without being looked at and are not hashed (C98).  Adding the
    group order to `a`, `b` or `r` (up to six times) gives other bytes that are accepted, so the bytes
    of a proof cannot serve as its identity.  A response with its top bit set is read in two ways in
    one verification: `Scalar * Scalar` reduces all 256 bits, `Point * Scalar` drops the top one, and
    the first entry of the subset products is the response as it came.  `C98_top_bit_accepted` is a
    proof that is accepted although the equation of the protocol fails for it.  The soundness
    theorems C13 and C57 are about scalars that are residues, that is about responses below `2^255`;
    C99 says what becomes of them.

34. **Quadratic proofs are forgeable for every length through the top bit of a response** (C99;
    bulletproof.cpp:342-395 with `Point::operator*=` and `Scalar::operator*=`).  A prover committed to
    `u` and `v` can prove that their inner product is `<u,v> + 2^255 v_1`, by running the honest prover
    with `2^255` added to `u_1` and writing the response with its top bit set: the point multiplication
    then does not see the `2^255`, the scalar multiplication does.  With offsets, as in main.cpp:250, a
    response for which adding the offset carries has the same effect with `2^256`.  Linear proofs are not
    affected.  A verifier that rejects responses that are not reduced would close this.

35. **Norm-squared proofs prove nothing about a norm** (C100; bulletproof.cpp:440-465).  The challenge that
    is to force the two vectors of the quadratic statement to be equal is drawn before the commitment
    is hashed, so the vectors can be chosen to fit it.  A proof that the square of one committed
    scalar is 2, which is no square modulo the group order, is accepted.  The aggregation of
    regevProofs.cpp does not use this function.

36. **A party can prove a wrong decryption of an honest ciphertext** (C102; regevProofs-utils.cpp:145).  The bound on
    the compressed decryption noise is about 15.6*2^126, and 2^126 is the step between the plaintexts.  A
    plaintext that is wrong by one in one place makes the compressed noise larger by about sqrt(128)*2^126 =
    11.3*2^126, so it fits (except for a fraction 2*2^-121 of the challenges).  C71 shows that there are ciphertexts with two provable
    plaintexts; here the ciphertext is honest and the party only lies about what it decrypts to.  The new shares are
    then shares of another secret, and everything is accepted.  What the proof does show is C73: the
    plaintext is right up to errors that fit in the bound.

37. **Printing an empty vector reads out of bounds** (C108; algebra.hpp, `printSvec` and `printEvec`).  The loop runs to
    `sv.length()-1`, which is -1 for an empty vector and 2^64-1 after the conversion to `size_t`.

Observations that are not theorems: `setParams` uses the natural logarithm where
its comment says base 2; `VerifierData` uses 377 where a comment says 337 (harmless slack); the
bound on high digits allows for rounding only in dimensions above 64
(C67_digits_fit), while the program accepts 32 parties, dimension 64; the
label "RegevKGHi" is used twice; X^2+1 splits modulo P, so `ZZ_pE` is not a
field; the `verify*` functions of regevProofs.hpp are declared but not
implemented (so there is no verifier code to model for them, other than
`aggregateVerifier` and `flatten*Ver`); meta-AD flags in merlin.c are C|A where
upstream Merlin uses M|A.

## 6. Seeded bugs

`seeded/LOG.jsonl` has one line per experiment: the model definition that was
edited in a scratch copy, the edit, the claim that becomes false, the theorems
whose proofs failed, the property theorems that were lost, and what was
tightened when an edit survived.
