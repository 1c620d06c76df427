{"id": "C01", "title": "Power-of-two helpers are exact", "statement": "For every size n with 1 <= n <= 2^63, next2power(n) returns the smallest power of two that is >= n and log2roundUp(n) returns its exponent, so next2power(n) == 1 << log2roundUp(n). Outside that range the helpers wrap (next2power(0)=0, next2power(n)=0 for n>2^63).", "quantifier": "every 64-bit size n", "why_tests_cant": "the 2^64 inputs include off-by-one boundaries at every power of two; a test samples a few", "anchors": ["include/pedersen.hpp:next2power", "include/pedersen.hpp:log2roundUp"]}
{"id": "C02", "title": "Subset products have their closed form", "statement": "subsetProduct(vec,n,basis,len,a) with len = log2roundUp(n) writes into vec[i], for every i<n, exactly a times the product of the basis scalars selected by the bits of i (most significant bit first), for every n, not only powers of two; expSubsetProduct returns sum_i (vec[i]+offsets[i])*G_i.", "quantifier": "every n >= 1, every basis, every scalar a, all offsets and all generators", "why_tests_cant": "the recursion splits differently for each n; tests use a handful of sizes and random scalars", "anchors": ["src/dlproofs/naive.cpp:subsetProduct", "src/dlproofs/naive.cpp:subsetProdRecurse", "src/dlproofs/naive.cpp:expSubsetProduct"]}
{"id": "C03", "title": "One-shot verification equals iterated folding", "statement": "The single multi-exponentiation a verifier computes from all the challenges (expSubsetProduct) equals what one gets by folding the generators challenge by challenge, the way the prover does (foldGenerators), for every number of generators and every challenge list.", "quantifier": "every n >= 2, all challenges, all generators", "why_tests_cant": "equality of two algorithms on vectors of arbitrary length", "anchors": ["src/dlproofs/naive.cpp:foldGenerators", "src/dlproofs/naive.cpp:expSubsetProduct", "src/dlproofs/bulletproof.cpp:verifyLinear"]}
{"id": "C04", "title": "Pedersen commitments are homomorphic and verifyCom is exact", "statement": "commit(x,r)+commit(y,s) = commit(x+y,r+s), scalar multiples scale the committed vector and randomness, commit2 is the sum of a G- and an H-commitment, and verifyCom/verifyCom2 accept a commitment exactly when it equals the recomputed one; every honest commitment verifies.", "quantifier": "all vectors of equal length, all randomness, all generators and extra generator F", "why_tests_cant": "ranges over all vectors, lengths and group elements", "anchors": ["include/pedersen.hpp:commit", "include/pedersen.hpp:commit2", "include/pedersen.hpp:verifyCom", "include/pedersen.hpp:verifyCom2"]}
{"id": "C05", "title": "Commitment binding reduces to a relation between generators", "statement": "Two different openings (x,r) != (y,s) of one commitment yield a non-trivial linear relation between base and the generators; hence with independent generators an opening is unique.", "quantifier": "all pairs of openings, all lengths and generators", "why_tests_cant": "binding is a statement about all possible adversarial openings", "anchors": ["include/pedersen.hpp:commit", "include/pedersen.hpp:verifyCom"]}
{"id": "C06", "title": "Linear proofs are complete", "statement": "For every n >= 1, generators, witness a, statement b and randomness: if proveLinear(pf, r, merlin, a, b, g, n) returns, on a commitment pf.C = commit(g,a,r), then verifyLinear on the resulting proof with the same transcript state and equalsTo = <a,b> returns true, or throws if the final challenge is zero; with any other value of equalsTo it returns false unless the derived generator F is zero. proveLinear throws exactly if some folding challenge of its run is zero, and otherwise returns.", "quantifier": "every n, witness, statement, generator vector, blinding coins and transcript hash function", "why_tests_cant": "lengths that are not powers of two take different folding paths; all challenges must work", "anchors": ["src/dlproofs/bulletproof.cpp:proveLinear", "src/dlproofs/bulletproof.cpp:verifyLinear"]}
{"id": "C07", "title": "Linear proofs with public witness offsets are complete", "statement": "If the prover proves the offset witness a-o against b with pf.C committing to the original a, then verifyLinear called with offsets o and equalsTo=<a-o,b> accepts (or throws, exactly if the final challenge is zero), for every n and offset vector.", "quantifier": "every n, witness, offsets, statement, generators, coins, transcript function", "why_tests_cant": "offset handling interacts with the final challenge; it must hold for every vector", "anchors": ["src/dlproofs/bulletproof.cpp:verifyLinear", "src/dlproofs/naive.cpp:expSubsetProduct"]}
{"id": "C08", "title": "Quadratic proofs are complete, with and without offsets", "statement": "For every n >= 1, if proveQuadratic returns on a commitment to the (offset) vectors x,y, then verifyQuadratic accepts with equalsTo=<x,y> and the same offsets.", "quantifier": "every n, vectors, offsets, generators, coins and transcript function", "why_tests_cant": "two generator families folded with inverse challenges, for every n", "anchors": ["src/dlproofs/bulletproof.cpp:proveQuadratic", "src/dlproofs/bulletproof.cpp:verifyQuadratic"]}
{"id": "C09", "title": "Norm-squared proofs are complete and report the true norm", "statement": "proveNormSquared returns the inner product of the vector with itself, and verifyNormSquared with that value accepts the produced proof, for every non-empty vector.", "quantifier": "every vector, index set, coins and transcript function", "why_tests_cant": "the shift by powers of a challenge has to cancel for every vector and challenge", "anchors": ["src/dlproofs/bulletproof.cpp:proveNormSquared", "src/dlproofs/bulletproof.cpp:verifyNormSquared"]}
{"id": "C10", "title": "Proof length is exactly logarithmic and wrong lengths are rejected", "statement": "An honest linear or quadratic proof for n elements carries exactly log2roundUp(n) L-points and R-points; the verifiers throw, whatever the rest of the proof, when either list has another length.", "quantifier": "every n and every (possibly malicious) proof object", "why_tests_cant": "a malicious proof can have any shape", "anchors": ["src/dlproofs/bulletproof.cpp:verifyLinear", "src/dlproofs/bulletproof.cpp:verifyQuadratic"]}
{"id": "C11", "title": "Verifier acceptance is exactly one group equation", "statement": "verifyLinear / verifyQuadratic return true on a proof if and only if the documented verification equation holds between the points of the proof, with challenges recomputed from the transcript of the proof; they use no other information about the prover.", "quantifier": "every proof object, statement, n, offsets, transcript function", "why_tests_cant": "needs all malicious proofs, not the honest ones tests produce", "anchors": ["src/dlproofs/bulletproof.cpp:verifyLinear", "src/dlproofs/bulletproof.cpp:verifyQuadratic"]}
{"id": "C12", "title": "Prover and verifier transcripts stay in step", "statement": "Running the verifier on an honest proof absorbs the same sequence of labelled messages as the prover did and ends in the same transcript state, so every challenge it derives is the one the prover used.", "quantifier": "every n, inputs and transcript function", "why_tests_cant": "a divergence could appear only at some lengths or message orders", "anchors": ["src/dlproofs/bulletproof.cpp:proveLinear", "src/dlproofs/bulletproof.cpp:verifyLinear", "src/dlproofs/bulletproof.cpp:proveQuadratic", "src/dlproofs/bulletproof.cpp:verifyQuadratic", "include/merlin.hpp"]}
{"id": "C13", "title": "Linear proofs are special sound", "statement": "From a full tree of accepting linear-proof conversations for one commitment C (three distinct challenges per folding level, two at the end) an explicit extractor computes r and a vector a of the witness length with C + eq*F = base*r + <G, a+offsets> + F*<a,b>. From two such trees with different F it computes an opening with <a,b> = equalsTo, or else explicit scalars, not all zero, giving a linear relation between base, the G_i and the two F's. Every opening is extracted from some accepting tree, so accepting trees exist exactly for the commitments that open.", "quantifier": "every n and every accepting transcript tree", "why_tests_cant": "soundness quantifies over all cheating provers", "anchors": ["src/dlproofs/bulletproof.cpp:verifyLinear"]}
{"id": "C14", "title": "Tag-level prove/verify round trip", "statement": "proveLinear(tag,constraint,witness) followed by verifyLinear(constraint,proof) accepts for every non-empty linear constraint with at most 2^20 terms and every satisfying witness on the same indexes (or the verifier throws, if the final challenge is zero); likewise proveQuadratic/verifyQuadratic, without the exception. The provers throw exactly if a folding challenge is zero. Mismatched index sets or sizes make the prover throw. With an empty witness the prover reads outside its arrays.", "quantifier": "every constraint, witness, tag, coins", "why_tests_cant": "ranges over all index sets and witnesses", "anchors": ["include/bulletproof.hpp:proveLinear", "include/bulletproof.hpp:verifyLinear", "include/bulletproof.hpp:proveQuadratic", "include/bulletproof.hpp:verifyQuadratic", "include/bulletproof.hpp:FlatLinStmt", "include/bulletproof.hpp:FlatQuadStmt"]}
{"id": "C15", "title": "Merging linear constraints is taking the linear combination", "statement": "LinConstraint::merge(cs,coeffs) produces the constraint whose coefficient at every index is sum_i coeffs[i]*cs[i].terms[idx], whatever order the priority queue returns equal elements in; its right-hand side is sum_i coeffs[i]*cs[i].equalsTo over the constraints that have at least one term (a constraint 0=b without terms is dropped silently); only the last term can have a zero coefficient; it throws on a length mismatch.", "quantifier": "all lists of constraints and coefficients", "why_tests_cant": "a k-way merge over arbitrary sorted maps with many tie cases; the right-hand side of empty constraints is dropped, which no test exercises", "anchors": ["src/dlproofs/constraints.cpp:LinConstraint::merge"]}
{"id": "C16", "title": "Merged linear constraint is implied by, and almost surely implies, its parts", "statement": "A witness satisfying all the constraints satisfies the merged one for all coefficients; conversely, if a witness violates some constraint then at most k-1 field elements r make the merge with coefficients 1,r,r^2,.. hold (k constraints, each with at least one term).", "quantifier": "all constraint lists, witnesses, challenges", "why_tests_cant": "soundness error is a count over the whole field", "anchors": ["src/dlproofs/constraints.cpp:LinConstraint::merge", "src/regev/regevProofs.cpp:aggregateVerifier1"]}
{"id": "C17", "title": "Sparse inner product is exact", "statement": "innerProduct(v1,v2) on index->scalar maps equals the sum over the common indexes of the products, and is symmetric.", "quantifier": "all pairs of maps", "why_tests_cant": "two-iterator merge over arbitrary key sets", "anchors": ["src/dlproofs/constraints.cpp:innerProduct"]}
{"id": "C18", "title": "Merging quadratic constraints", "statement": "QuadConstraint::merge unions the index sets and sets the right-hand side to sum_i coeffs[i]^2*equalsTo_i; for disjoint constraints, scaling every witness block by coeffs[i] satisfies the merge whenever each block satisfies its own constraint.", "quantifier": "all lists of constraints, coefficients, witnesses", "why_tests_cant": "all index sets and witnesses", "anchors": ["src/dlproofs/constraints.cpp:QuadConstraint::merge"]}
{"id": "C19", "title": "QuadConstraint::operator+= on disjoint sets is union and sum, and is defined only on some inputs", "statement": "For two non-empty constraints, += throws iff they have a common index; on disjoint ones it is undefined behaviour (reads past the end of the argument) iff the largest index of the argument lies strictly between the smallest and the largest index of the target; otherwise the index sets are united and the right-hand sides added. With an empty operand the other one is returned.", "quantifier": "all pairs of constraints", "why_tests_cant": "undefined behaviour occurs only for particular interleavings", "anchors": ["src/dlproofs/constraints.cpp:QuadConstraint::operator+="]}
{"id": "C20", "title": "Constraint checkers decide satisfaction exactly", "statement": "checkConstraint(lin,w) is true iff w has exactly the constraint's indexes and sum a_i w_i = b; checkConstraintLoose is true iff w has a value at every index with non-zero coefficient and the sum holds; likewise for the quadratic variants.", "quantifier": "all constraints and witnesses", "why_tests_cant": "iff over all maps, including missing and extra indexes", "anchors": ["src/dlproofs/constraints.cpp:checkConstraint", "src/dlproofs/constraints.cpp:checkConstraintLoose"]}
{"id": "C21", "title": "splitPtxtVec partitions exactly", "statement": "splitPtxtVec(inter,diff,src,by) puts into inter the entries of src whose index is in by, into diff the others, loses nothing, and returns one more than the largest index in src and by (1 if both are empty).", "quantifier": "all maps and sets", "why_tests_cant": "two-pointer traversal with early exits", "anchors": ["src/dlproofs/constraints.cpp:splitPtxtVec"]}
{"id": "C22", "title": "makeAlmostDisjoint separates the constraints and preserves meaning", "statement": "After makeAlmostDisjoint(lin,quad,s), with all indexes below 2^31-1, the constraints share exactly one index, the returned new one; for an assignment with y_new=s satisfying the new linear constraint, the new quadratic defect is the old quadratic defect minus s times the old linear defect (with y shifted back), in particular an honest witness stays one. At index 2^31-1 the int arithmetic overflows and beyond it the new index need not be fresh.", "quantifier": "all constraints, scalars, witnesses", "why_tests_cant": "iff over all index sets; index arithmetic is done in int", "anchors": ["src/dlproofs/constraints.cpp:makeAlmostDisjoint", "include/constraints.hpp:largestKey"]}
{"id": "C23", "title": "Any t shares reconstruct the secret", "statement": "For every sharing v of a secret s produced by newSharing (or any v with H*v=0) and every set of exactly t distinct valid evaluation points, getSecret of the shares at these points returns s = v[0].", "quantifier": "every field, evaluation set, threshold, secret, randomness and reconstruction set", "why_tests_cant": "all subsets of size t and all polynomials", "anchors": ["src/tools/shamir.cpp:newSharing", "src/tools/shamir.cpp:lagrangeCoeffs", "src/tools/shamir.cpp:getSecret"]}
{"id": "C24", "title": "The parity-check matrix accepts exactly the valid sharings", "statement": "H*v=0 holds iff v is the vector of values at (0, x_1..x_n) of a polynomial of degree < t; and H has exactly n+1-t rows, no more equations than needed, when NTL's kernel routine returns a basis.", "quantifier": "every evaluation set, threshold and vector v", "why_tests_cant": "iff over all vectors", "anchors": ["src/tools/shamir.cpp:computeKernel"]}
{"id": "C25", "title": "Fewer than t shares reveal nothing", "statement": "For any t-1 distinct evaluation points and any values there, every secret is consistent with exactly one sharing polynomial through those values, so the t-1 shares of newSharing are distributed independently of the secret.", "quantifier": "every set of t-1 points, values and secrets", "why_tests_cant": "privacy is a statement about the whole distribution", "anchors": ["src/tools/shamir.cpp:newSharing"]}
{"id": "C26", "title": "Ternary matrices decode bytes as specified", "statement": "setFromBytes maps bit pair 00 and 11 to 0, 01 to 1 and 10 to -1, entry (r,c) coming from bits 2(c mod 4) of byte r*ceil(cols/4)+c/4; every entry is in {-1,0,1}; uniform bytes give probabilities 1/4,1/2,1/4.", "quantifier": "every byte buffer and matrix shape", "why_tests_cant": "all bytes and shapes, including column counts not divisible by 4", "anchors": ["src/algebra/ternaryMatrix.cpp:setFromBytes", "include/ternaryMatrix.hpp"]}
{"id": "C27", "title": "Ternary matrix products equal ordinary products", "statement": "Left and right vector and matrix multiplication by a TernaryMatrix equals the ordinary matrix product with its {-1,0,1} entries, for all shapes; incompatible dimensions throw.", "quantifier": "all matrices, vectors, shapes and scalars", "why_tests_cant": "add/sub accumulation over arbitrary shapes", "anchors": ["src/algebra/ternaryMatrix.cpp:leftVecMult", "src/algebra/ternaryMatrix.cpp:rightVecMult", "src/algebra/ternaryMatrix.cpp:leftMatMult", "src/algebra/ternaryMatrix.cpp:rightMatMult"]}
{"id": "C28", "title": "Ternary extension-field matrices multiply as matrices of polynomials", "statement": "Products with a TernaryEMatrix (one ternary matrix per power of X, Horner evaluation) equal the ordinary product with the matrix of elements sum_i M_i X^i.", "quantifier": "all matrices, shapes, extension degrees", "why_tests_cant": "Horner order and sign over arbitrary degree", "anchors": ["src/algebra/ternaryMatrix.cpp:TernaryEMatrix"]}
{"id": "C29", "title": "Challenge-matrix buffers are large enough", "statement": "newTernaryMatrix / newTernaryEMatrix(n,m) never make setFromBytes read beyond the challenge buffer: true exactly when n times the number of unused entries per row, (-m) mod 4, is at most 3 (so whenever the number of columns is a multiple of 4); otherwise the code reads beyond the end of the buffer, in particular for every n >= 4 when m is not a multiple of 4.", "quantifier": "every shape (n,m)", "why_tests_cant": "an over-read is silent in tests and depends on the shape", "anchors": ["include/regevProofs.hpp:newTernaryMatrix", "include/regevProofs.hpp:newTernaryEMatrix", "src/algebra/ternaryMatrix.cpp:setFromBytes"]}
{"id": "C30", "title": "Two-square decomposition is correct", "statement": "For every prime p = 1 mod 4, decomposeProbablePrime(p) terminates and returns either non-negative a,b with a^2+b^2=p, or (0,0) to report that no square root of -1 was found; the failure is possible only if p = 1 mod 8, p >= 281 and every prime below 281 is a quadratic residue mod p. It throws for p != 1 mod 4.", "quantifier": "every prime p = 1 mod 4", "why_tests_cant": "infinitely many primes; correctness is number theory (Cornacchia/Euclid)", "anchors": ["src/algebra/foursquares.cpp:decomposeProbablePrime", "src/algebra/foursquares.cpp:iunit"]}
{"id": "C31", "title": "Four-square decomposition is correct", "statement": "For every n >= 0, if the probable-prime test accepts no composite, decompose4(n) returns either non-negative a,b,c,d with a^2+b^2+c^2+d^2=n or (-1,-1,-1,-1); it throws exactly for n < 0 and never fails on perfect squares. The failure really occurs although every n is a sum of four squares: n = 71, and infinitely many n = (4k)^2+7.", "quantifier": "every n >= 0 and every prime-test outcome", "why_tests_cant": "all integers up to 2^400 and all random choices", "anchors": ["src/algebra/foursquares.cpp:decompose4"]}
{"id": "C32", "title": "pad2exactNorm reaches the bound exactly", "statement": "For every vector (of scalars or ring elements) of norm at most bound < P/2, appending the pad computed by pad2exactNorm gives squared norm exactly bound^2 unless the four-square search failed; the failure is not noticed and then the norm is wrong (witness (8,3), bound 12). Vectors whose norm exceeds the bound make it throw; a pad of fewer than 4 scalars is overrun.", "quantifier": "every vector and bound", "why_tests_cant": "all vectors", "anchors": ["src/regev/regevProofs-utils.cpp:pad2exactNorm"]}
{"id": "C33", "title": "Plaintext decoding corrects all small noise", "statement": "decodePtxt of -(x+e0, Delta*x+e1) (the value -(x*g+e) that decryption computes) returns x and (e0,e1) for every x in Z_P and every noise with |e0|,|e1| < 2^125; for general ring degree it does so whenever no e_{i+1}-Delta*e_i wraps around the modulus and the last coefficient is in [floor(D/2)-D, floor(D/2)), D=Delta^(ell-1). The bound is tight: with noise (0,2^125) every plaintext is decoded as x+1.", "quantifier": "every plaintext and noise pair within the bound", "why_tests_cant": "2^252 plaintexts times all noises", "anchors": ["src/regev/regevEnc.cpp:decodePtxt"]}
{"id": "C34", "title": "Decryption inverts encryption", "statement": "For every CRS, key pair, plaintext vector, encryption randomness and noise for which E = <noise,r>+e2_i-<sk,e1> is within the decoding bound, decrypt(sk_i,i,encrypt(ptxt)) returns ptxt_i and the reported noise is exactly E. A secret key, ciphertext, index or plaintext vector of the wrong size is refused with an exception.", "quantifier": "all keys, plaintexts, noise, dimensions", "why_tests_cant": "ranges over all noises and dimensions", "anchors": ["src/regev/regevEnc.cpp:internalEncrypt", "src/regev/regevEnc.cpp:internalDecrypt", "src/regev/regevEnc.cpp:internalKeyGen"]}
{"id": "C35", "title": "Parameter bounds imply correct decryption", "statement": "The rejection-sampling bounds enforced by key generation and encryption imply that every coefficient of the accumulated noise is below 3*k*ell*2^sigma1+2^sigma2 in absolute value, so with the library's ring every successful encryption decrypts correctly whenever that sum is at most 2^125; the parameters setParams computes for 2 <= n < 2^30 satisfy this (in exact real arithmetic).", "quantifier": "every outcome of the samplers that passes the checks", "why_tests_cant": "probability-one statement over all sampler outputs", "anchors": ["src/regev/regevEnc.cpp:internalKeyGen", "src/regev/regevEnc.cpp:internalEncrypt", "include/regevEnc.hpp:KeyParams"]}
{"id": "C36", "title": "Two-digit decomposition is exact and bounded", "statement": "breakTwoDigits(hi,lo,v,radix) with 1 <= radix < P gives lo + radix*hi = v over the integers in every coefficient (balanced representatives), with -radix < 2*lo <= radix and |hi| <= |v|/radix + 1/2; as ring elements lo + radix*hi = v for every radix other than zero. A zero radix throws, unless the vector is empty.", "quantifier": "all vectors and radixes", "why_tests_cant": "all integers", "anchors": ["src/regev/regevProofs-utils.cpp:breakTwoDigits"]}
{"id": "C37", "title": "Expanded constraints express multiplication in the extension ring", "statement": "expandConstraints(constrs,idx,v) adds to the left-hand sides of ell constraints, read as a polynomial, sum_k v_k*x_k mod X^ell+1, where x_k are consecutive blocks of ell variables, and changes nothing else; starting from empty constraints and with setEqsTo(e) they are satisfied exactly when sum_k v_k*x_k = e in the extension ring. makeConstraints likewise for scalar variables. Slices within the vector behave as the sliced vector, slices past its end are undefined.", "quantifier": "all ring elements, vectors, offsets, ell", "why_tests_cant": "ring multiplication for all inputs", "anchors": ["src/regev/regevProofs-utils.cpp:expandConstraints", "src/regev/regevProofs-utils.cpp:makeConstraints"]}
{"id": "C38", "title": "Public keys are registered in order and never exceed the declared number", "statement": "After any history of addPK calls the parameters and CRS are unchanged, the rows used by encryption are in order the first enn keys of the right length followed by zero rows, each call returned the number of keys registered before it, and a key of the wrong length or one beyond enn is refused and changes nothing. Encryption does not check that every place is taken: at an unregistered place the plaintext can be decoded from the public ciphertext with no key.", "quantifier": "every sequence of addPK calls", "why_tests_cant": "all histories", "anchors": ["src/regev/regevEnc.cpp:addPK"]}
{"id": "C39", "title": "Variable index ranges do not overlap", "statement": "For all parameters whose indexes fit an int, the 27 blocks of variables assigned by setIndexes are consecutive from 0, pairwise disjoint and cover every index up to the last; swapping the two secret keys between proofs keeps them disjoint; variable i has generator G_i, each quadratic variable H_i and the extra variable w has H_w.", "quantifier": "all dimensions kay, enn, tee, JL parameters", "why_tests_cant": "arithmetic over all parameter settings", "anchors": ["src/regev/regevProofs-utils.cpp:setIndexes"]}
{"id": "C40", "title": "Vector-to-map helpers", "statement": "addSVec2Map / addEVec2Map store entry i at offset+i (coefficient j of entry i at offset+ell*i+j), overwriting what was there, and leave other indexes unchanged; addRange2Set adds exactly from..from+len-1 as long as these are below 2^31, and loses a range that crosses 2^31.", "quantifier": "all vectors, maps, offsets", "why_tests_cant": "all maps", "anchors": ["include/utils.hpp:addEVec2Map", "include/utils.hpp:addSVec2Map", "include/utils.hpp:addRange2Set"]}
{"id": "C41", "title": "Power vectors", "statement": "powerVector(vec,x,len) is (1,x,..,x^(len-1)) for every len >= 1, over scalars and over the extension ring; len = 0 writes out of bounds.", "quantifier": "every x and length", "why_tests_cant": "all lengths", "anchors": ["src/regev/regevProofs-utils.cpp:powerVector"]}
{"id": "C42", "title": "Aggregation preserves satisfiability and commitments", "statement": "If all the individual linear and norm constraints hold for the prover's witness and commitments, then, unless a challenge is exceptional (the norms challenge is zero, or the aggregated linear constraint loses a variable with a non-zero value), the single aggregated linear and quadratic constraints that aggregateProver outputs hold for the witness it outputs, the output commitments open to it, and a verifier computes the same statement from public data; the final provers throw exactly if a folding challenge is zero, and otherwise their proofs verify, except that the linear verifier throws if its final challenge is zero. With a zero norms challenge aggregateProver throws.", "quantifier": "all constraint systems, witnesses, challenges", "why_tests_cant": "composition of all transformations for every challenge", "anchors": ["src/regev/regevProofs.cpp:aggregateProver", "src/regev/regevProofs.cpp:aggregateVerifier1", "src/regev/regevProofs.cpp:aggregateVerifier2"]}
{"id": "C43", "title": "The recorded constraints say decryption, encryption, key generation and resharing are right", "statement": "proveDecryption, proveEncryption, proveKeyGen, proveReShare and proveSmallness add to the statement linear constraints that hold of an assignment exactly when the corresponding relation does (the ciphertexts decrypt to the plaintexts with that key and noise, etc., against a random combination by the challenges); when the inputs satisfy the relation, the constraints hold for the witness that is added. On inputs of the expected lengths the first three return normally exactly when the secrets multiplied by the challenge matrices fit their norm bounds, which small enough secrets always do, and otherwise throw; proveReShare throws exactly on other lengths; proveSmallness throws exactly when all of its 100 trials are rejected. proveEncryption reads outside its challenge buffer when the dimensions are not multiples of 4, proveKeyGen outside the key matrix when the key number is too large, and a left-over linear constraint from an earlier proof changes the statement of proveEncryption.", "quantifier": "all keys, ciphertexts, noises, challenges, dimensions", "why_tests_cant": "all inputs and transcript challenges", "anchors": ["src/regev/regevProofs.cpp:proveDecryption", "src/regev/regevProofs.cpp:proveEncryption", "src/regev/regevProofs.cpp:proveKeyGen", "src/regev/regevProofs.cpp:proveReShare", "src/regev/regevProofs.cpp:proveSmallness"]}
{"id": "C44", "title": "Flattened quadratic statement gives two variables the same generator", "statement": "flattenQuadVer should give each variable its own H generator. The code picks the generator for the extra variable w with the wrong vector's size: the generators it uses are characterised, the generator of w equals that of another variable, and therefore one commitment has two different openings that need no discrete logarithm.", "quantifier": "all index sets", "why_tests_cant": "all layouts; honest proofs still verify, so tests pass", "anchors": ["src/regev/regevProofs.cpp:flattenQuadVer"]}
{"id": "C45", "title": "Byte encodings round trip", "statement": "bytesFromInt writes the 8 little-endian bytes of n, and intFromBytes reads n back exactly when n < 2^31 or n >= 2^64-2^31. scalarBytes/scalarFromBytes round trip for every buffer of at least the modulus size, and conv between the two scalar types is a bijection between residues and canonical 32-byte strings. elementBytes fills its buffer for every size; reading back gives, for each coefficient, the bytes that fit, hence the same element if the buffer has 32 bytes per coefficient. conv(Scalar, BigInt) encodes |a| for |a| < P, so negative values lose their sign.", "quantifier": "every integer, scalar, element and buffer size", "why_tests_cant": "all 2^64 integers", "anchors": ["include/merlin.hpp:bytesFromInt", "include/merlin.hpp:intFromBytes", "include/algebra.hpp:elementBytes"]}
{"id": "C46", "title": "Balanced remainder of scalars", "statement": "x %= y leaves a value congruent to x (as a signed integer) modulo |y| whose balanced representative lies in (-|y|/2, |y|/2], for all x and non-zero y other than (P-1)/2; y = 0 throws. For x = (P-1)/2 the result is wrong: (P-1)/2 is even but (P-1)/2 %= 2 gives 1.", "quantifier": "all pairs of scalars", "why_tests_cant": "2^504 pairs; boundary values are exceptional", "anchors": ["src/25519/curve25519.cpp:operator%="]}
{"id": "C47", "title": "Bounded and binary scalar samplers stay in range", "statement": "BoundedSizeScalar(n) throws exactly for n outside 1..251. Otherwise every sample is the canonical encoding of an integer in [-(2^n-1), 2^n-1]; over all random strings each non-zero integer of that range occurs equally often and zero twice as often. ZeroOneScalar on zeroed storage gives 0 or +-1 by the two low bits of its random word; with an even word it leaves used storage unchanged, so an old value survives.", "quantifier": "every n, every random byte string", "why_tests_cant": "all random strings", "anchors": ["include/scalar25519.hpp:BoundedSizeScalar", "include/scalar25519.hpp:ZeroOneScalar"]}
{"id": "C48", "title": "Integer-to-scalar conversion", "statement": "setInteger(n) is the canonical encoding of n mod P for every long n except the most negative one, for which the negation overflows (undefined behaviour).", "quantifier": "every 64-bit integer", "why_tests_cant": "2^64 inputs", "anchors": ["include/scalar25519.hpp:setInteger"]}
{"id": "C49", "title": "Generator labels never collide", "statement": "The hash inputs of two generators are equal exactly when they have the same context tag, the same kind (G or H) and indexes congruent modulo 2^32, for all tags, including tags containing letters and digits that look like labels.", "quantifier": "all tags and indexes", "why_tests_cant": "all pairs of indexes", "anchors": ["include/pedersen.hpp:PedersenContext"]}
{"id": "C50", "title": "Merlin transcript never overruns its sponge", "statement": "For every protocol label and every sequence of commit and challenge operations of every length: no write outside the 200-byte state, the STROBE position stays in [0,166), no assertion fires, and every challenge has the requested length. The witness RNG is used safely in the order init, commits, finalize, one random_bytes call; any other order, and a second random_bytes call, stops at an assertion.", "quantifier": "every sequence of operations and messages", "why_tests_cant": "memory safety over all histories", "anchors": ["src/libmerlin/merlin.c:strobe128_absorb", "src/libmerlin/merlin.c:strobe128_begin_op", "src/libmerlin/merlin.c:strobe128_run_f"]}
{"id": "C51", "title": "Transcript encoding is injective", "statement": "Two different sequences of labelled commits and challenge requests are absorbed as different input to the sponge: the framing alone (operation boundaries and flags) determines the sequence, and every challenge is the sponge of that unambiguous input. Hence equal challenges for different histories would be a collision of the Keccak sponge.", "quantifier": "all sequences of labels and messages", "why_tests_cant": "all message sequences", "anchors": ["src/libmerlin/merlin.c:merlin_transcript_commit_bytes", "src/libmerlin/merlin.c:merlin_transcript_challenge_bytes"]}
{"id": "C52", "title": "Constraints are bound by the transcript", "statement": "The operations absorbed for a list of labelled linear constraints determine the list provided all indexes are below 2^32 and scalars are encoded injectively; for quadratic constraints below 2^64. Linear-constraint indexes that differ by a multiple of 2^32 are absorbed identically. Exactly which bytes are absorbed: for a linear constraint its label, each coefficient labelled by the index converted to a 32-bit signed number and back to eight little-endian bytes, and the right-hand side; for a quadratic one its label, all indexes as 64-bit little-endian numbers, and the right-hand side.", "quantifier": "all constraints", "why_tests_cant": "all index values", "anchors": ["include/merlin.hpp:processConstraint"]}
{"id": "C53", "title": "Deriving blinding factors does not disturb the transcript", "statement": "newBlindingFactors, from every reachable transcript and for every witness array that is long enough, returns two 64-byte strings and leaves the transcript as it was; two runs of a prover from the same transcript that output the same proof leave the transcript in the same state, whatever their witnesses and randomness.", "quantifier": "every witness and every rng output", "why_tests_cant": "all runs", "anchors": ["include/merlin.hpp:newBlindingFactors"]}
{"id": "C54", "title": "Reading back a written proof", "statement": "A proof written with operator<< and followed by anything is read back by operator>> (into any object) exactly when its tag is a nonempty word without white space, the bytes of C start with white space, there is at least one L whose bytes do not start with an ASCII digit, and the bytes after the second count (the first R, or S) do not start with a digit. So proofs about one variable and almost all others are not read back; when the stream contains no white space at all the number of L's is used uninitialised.", "quantifier": "all linear and quadratic proofs, all objects read into, all bytes that follow in the stream", "why_tests_cant": "whether the round trip works depends on the bytes of random curve points; the characterisation is over all of them and all lengths", "anchors": ["src/dlproofs/bulletproof.cpp:operator<<", "src/dlproofs/bulletproof.cpp:operator>>", "include/point25519.hpp:operator<<", "include/scalar25519.hpp:operator>>"]}
{"id": "C55", "title": "Building constraints term by term", "statement": "addTerm(idx,s) adds s to the coefficient at idx (inserting it if new) and changes nothing else; addIdx(idx) adds idx and throws exactly when it is already there.", "quantifier": "all constraints, indexes and scalars", "why_tests_cant": "all maps, all indexes, new or present", "anchors": ["src/dlproofs/constraints.cpp:LinConstraint::addTerm", "include/constraints.hpp:QuadConstraint::addIdx"]}
{"id": "C56", "title": "Slice commitments commit to exactly the slice", "statement": "commit(v,genIdx,Gs,r,from,to) on ring elements returns r*base + sum of the coefficients of v[from..to) times the generators from genIdx on, and throws when there are too few generators; commit2 is the product of the commitments with Gs and with Hs. On scalars it is right only from index 0: every non-empty slice with from > 0 writes out of bounds.", "quantifier": "all vectors, slices, generator lists, offsets and randomness", "why_tests_cant": "tests use full vectors only; the out-of-bounds write is silent", "anchors": ["src/regev/regevProofs-utils.cpp:commit", "src/regev/regevProofs-utils.cpp:commit2"]}
{"id": "C57", "title": "Quadratic proofs of power-of-two length are special-sound", "statement": "When the number of indexes is a power of two, from a tree of conversations that verifyQuadratic accepts (five challenges at a leaf, four at a node) one can compute scalars and vectors a, b that open the commitment, and a list of linear relations between the generators; if these relations are all trivial, <a,b> equals the exponent of the value generator, and from two such trees with different value generators, <a,b> equals the claimed value or a non-trivial relation between generators is found. So a prover that convinces the verifier often enough knows a witness or breaks discrete logarithms. Every such opening is extracted from some accepted tree that yields only trivial relations.", "quantifier": "every number of rounds, every commitment, claimed value, offsets, generators and every accepted tree of conversations", "why_tests_cant": "soundness is about all cheating provers; tests run only the honest one", "anchors": ["src/dlproofs/bulletproof.cpp:verifyQuadratic", "src/dlproofs/bulletproof.cpp:proveQuadratic"]}
{"id": "C58", "title": "Quadratic proofs of a length that is not a power of two can be forged", "statement": "For every quadratic constraint (or norm-squared statement) on n > 1 indexes, n not a power of two, and every claimed value, there is an efficient prover that knows only zero vectors and makes a proof that verifyQuadratic (verifyNormSquared) accepts. So quadratic proofs are not sound for those lengths; this records a defect of the code.", "quantifier": "every constraint whose length is not a power of two, every claimed value, every tag and every transcript function without zero challenges", "why_tests_cant": "tests only run the honest prover; unsoundness is a statement about a cheating prover for every constraint", "anchors": ["src/dlproofs/bulletproof.cpp:proveQuadratic", "src/dlproofs/bulletproof.cpp:verifyQuadratic", "src/dlproofs/bulletproof.cpp:verifyNormSquared"]}
{"id": "C59", "title": "Scalars are the prime field of the group order", "statement": "The group order is prime; on canonical 32-byte scalars the operators += -= *= negate /= and invert compute the field operations modulo it with canonical results; invert and /= throw exactly for zero; equality of scalars is equality of residues; innerProduct is the inner product.", "quantifier": "all pairs of canonical scalars and all vectors of them", "why_tests_cant": "2^504 pairs of scalars; primality of a 253-bit number", "anchors": ["include/scalar25519.hpp:Scalar", "src/25519/curve25519.cpp:innerProduct"]}
{"id": "C60", "title": "The transcript's permutation is Keccak-f[1600]", "statement": "For every 200-byte state, keccakf leaves 200 bytes, and each of the 1600 bits is what Keccak-f[1600] of FIPS 202 prescribes, with the round constants from the shift register and the rotation offsets from the walk in the standard.", "quantifier": "all 2^1600 states", "why_tests_cant": "known-answer tests cover a few states; a wrong table entry or rotation can be masked", "anchors": ["src/libmerlin/merlin.c:keccakf"]}
{"id": "C61", "title": "The transcript's permutation is one-to-one", "statement": "Every 200-byte state is the image under keccakf of exactly one 200-byte state: nothing absorbed into a transcript is lost by running the permutation.", "quantifier": "all 2^1600 states", "why_tests_cant": "injectivity compares all pairs of states", "anchors": ["src/libmerlin/merlin.c:keccakf"]}
{"id": "C62", "title": "Points are a group with scalars acting on it", "statement": "Given libsodium's documented behaviour (which rejects the identity), the operators += -= *= on points never throw and give the result of the group operation for all points of the main subgroup and all canonical scalars, including the identity and zero; sums of products are multi-exponentiations. baseTimesScalar agrees with base*n for n nonzero and throws for zero.", "quantifier": "all points of the subgroup, all canonical scalars, all lists of them", "why_tests_cant": "all pairs of points; the special cases for the identity arise only for particular pairs", "anchors": ["include/point25519.hpp:Point", "include/point25519.hpp:baseTimesScalar", "src/dlproofs/naive.cpp:multiExp"]}
{"id": "C63", "title": "What the aggregated proof enforces about norms", "statement": "The public quadratic statement that aggregation derives from the constraints and four challenges holds of committed values exactly when an explicit equation does. If it holds for sufficiently many challenges, then the values committed on both generator sides agree on every quadratic variable except variable 0, all linear constraints hold, and the norm constraints of all blocks except the first hold. The norm bound of the first block (high digits of the compressed decryption noise) is not enforced: any values for it with first coordinate different from 1 are accepted, by changing one committed scalar. This holds because the vector of powers used to enforce equality starts with the power zero.", "quantifier": "for all constraints, committed values, challenges, commitments, index layouts and prover coins", "why_tests_cant": "tests only run honest provers; both enforcement and its failure for the first block quantify over all values a dishonest prover may commit to and over all challenges", "anchors": ["src/regev/regevProofs.cpp:aggregateVerifier1", "src/regev/regevProofs.cpp:aggregateVerifier2", "src/regev/regevProofs-utils.cpp:powerVector", "src/main.cpp:main"]}
{"id": "C64", "title": "An honest round of proofs is accepted", "statement": "An honest party that constructs its data, commits to its key and then calls proveDecryption, proveEncryption, proveKeyGen, proveReShare and proveSmallness, on ciphertexts that decrypt to its shares with that key, a new ciphertext of a resharing of its share and a new key pair, ends with values that satisfy every recorded linear and norm constraint and open every published commitment; after aggregation the linear and the quadratic proof made from them are accepted. The exceptions are: the four-squares search reports failure, a trial limit is exceeded (the code throws), an aggregation challenge is one of at most (w-2600)(k-1) bad ones or zero, or a challenge of the two final proofs is zero (the code throws).", "quantifier": "all parameters (dimensions, keys, bounds), all honest inputs, all coins, all transcripts, all outcomes of the primality tests without false primes", "why_tests_cant": "the program runs one random instance; acceptance must hold for all keys, noises, challenges and dimensions, and the exceptional challenges have negligible probability in a test", "anchors": ["src/main.cpp:main", "src/regev/regevProofs.cpp:proveDecryption", "src/regev/regevProofs.cpp:proveEncryption", "src/regev/regevProofs.cpp:proveKeyGen", "src/regev/regevProofs.cpp:proveReShare", "src/regev/regevProofs.cpp:proveSmallness", "src/regev/regevProofs.cpp:aggregateProver", "src/regev/regevProofs-utils.cpp:VerifierData"]}
{"id": "C65", "title": "Any number of rounds on the same data", "statement": "After any number of honest rounds, each followed by prepareForNextProof, the commitment stored as the one to the current secret key is a commitment to the key generated in the last round, all constraints are empty and nothing of earlier rounds is left in the witnesses outside the variables; hence the next honest round is accepted just as the first one.", "quantifier": "all histories: any number of rounds, each with its own keys, inputs, coins, challenges and public parameters of the same dimensions", "why_tests_cant": "the program makes one round and never calls prepareForNextProof; the claim is about histories of unbounded length, with the two key slots exchanged after each round", "anchors": ["include/regevProofs.hpp:VerifierData::prepareForNextProof", "include/regevProofs.hpp:ProverData::prepareForNextProof", "src/regev/regevProofs.cpp:aggregateProver", "src/regev/regevProofs.cpp:flattenLinPrv", "src/regev/regevProofs.cpp:flattenQuadPrv"]}
{"id": "C66", "title": "A run of the driver program with keys, shares and ciphertexts made by the library", "statement": "The program generates keys for all parties, shares a random secret, encrypts the shares to all parties, decrypts as one party, encrypts a new sharing of the decrypted values, and makes the five proofs. With the modulus of the library and parameters that leave room for the noise it never reports a decryption error; what it hands to the proof functions satisfies the relations that are proved; it gets that far if and only if all the rejection samplers find a short enough vector and throws otherwise; if it gets to the final proofs, no four-square search failed and the aggregation challenges are good, the verifier accepts both; and for every number of parties for which both dimensions are multiples of 4 there are coins with which it does get to the end (when the transcript's challenges are zero). If a dimension is not a multiple of 4, as with the default of 512 parties, it never gets past the proof functions: it throws or reads out of bounds.", "quantifier": "all dimensions, noise sizes, reference strings, coins of every key generation, sharing, encryption and proof, generators and transcripts", "why_tests_cant": "the program is run with one choice of parameters and a handful of random coins; correctness must hold for every one of them", "anchors": ["src/main.cpp:main", "src/regev/regevEnc.cpp:GlobalKey", "include/shamir.hpp:randomSharing", "src/regev/regevProofs.cpp:proveDecryption"]}
{"id": "C67", "title": "Norm bounds computed by the verifier's constructor", "statement": "For every number of parties from 5 to 2^30 and the dimension and noise sizes the library derives from it, the norm bounds computed when the verifier's data is constructed (up to a relative error of 0.1% in the floating-point arithmetic) are ordered as the noise sizes are, fit the machine and field ranges that the proof functions rely on, and with fewer than 2^28 parties are small enough that a norm equation modulo P between values that passed the smallness test also holds over the integers; the high digits of a compressed vector that is within its bound are within theirs.", "quantifier": "all numbers of parties, all roundings of the computed bounds within the tolerance, all vectors", "why_tests_cant": "a test fixes one number of parties; wrap-around of a norm modulo P would only show for adversarial vectors", "anchors": ["src/regev/regevProofs-utils.cpp:VerifierData", "include/algebra.hpp:multDbl", "include/algebra.hpp:log2BI", "src/regev/regevEnc.cpp:setParams", "src/main.cpp:main"]}
{"id": "C68", "title": "What the smallness test shows", "statement": "If a prover commits to a vector with a coefficient larger than twice the smallness bound, then whatever mask it has committed to, at most one in 2^64 of the byte strings from which the challenge matrix of the smallness test is read lead to a reply within the bound; hence with fewer than 2^28 parties committed values that meet a norm equation only modulo P, and not over the integers, pass with probability at most 2^-64. This is best possible: there are vectors for which exactly one in 2^64 challenges has a short reply.", "quantifier": "all vectors, all masks, all bounds, all challenge byte strings; all numbers of parties from 5 to 2^28", "why_tests_cant": "the fraction of bad challenges is a statement about all 256^41600 challenges and all cheating vectors", "anchors": ["src/regev/regevProofs.cpp:proveSmallness", "include/regevProofs.hpp:newTernaryEMatrix", "src/algebra/ternaryMatrix.cpp:leftVecMult"]}
{"id": "C69", "title": "What the batched equations show", "statement": "The proofs batch m equations over the ring into one, with the powers of a challenge. If one of the equations is false, the batched one is true for at most (m-1)*P challenges out of P^2, which is a fraction of at most (m-1)/2^251 of the 64-byte strings a challenge is read from; otherwise the recorded constraints of the decryption, encryption, key generation and smallness proofs hold exactly if all the equations do. The count is exact: because -1 is a square modulo P the ring is not a field, and some equations have (m-1)*P bad challenges rather than m-1.", "quantifier": "all numbers of equations, all false equations, all challenges, all values of the variables", "why_tests_cant": "it counts the bad challenges among P^2, for every set of equations", "anchors": ["src/regev/regevProofs.cpp:proveDecryption", "src/regev/regevProofs.cpp:proveEncryption", "src/regev/regevProofs.cpp:proveKeyGen", "src/regev/regevProofs.cpp:proveSmallness", "src/regev/regevProofs-utils.cpp:expandConstraints"]}
{"id": "C70", "title": "What the norm of a compressed vector shows", "statement": "If a vector that is fixed before the challenge matrix is drawn has a coefficient larger than 2B/sqrt(k+1), then for at most a fraction sum_{i<=k} binom(128,i)/2^128 of the challenge byte strings its product with the 128-column (or 128-row) challenge matrix has norm at most B. Hence, once key and plaintext (or randomness) are committed to, for all but that fraction of the challenges no digits with the recorded norms satisfy the equations of the decryption, encryption and key generation proofs, unless all coefficients of the noise (and of key and randomness) are at most 2(B + radix*(16+sqrt(dim)+1))/sqrt(k+1).", "quantifier": "all vectors, bounds, coefficients, thresholds k, challenge byte strings, and all digits chosen after the challenge", "why_tests_cant": "it counts challenges among 256^(more than 90000) and covers every cheating choice of digits", "anchors": ["src/regev/regevProofs.cpp:proveDecryption", "src/regev/regevProofs.cpp:proveEncryption", "src/regev/regevProofs.cpp:proveKeyGen", "src/algebra/ternaryMatrix.cpp:leftVecMult"]}
{"id": "C71", "title": "Whether a decryption proof determines the plaintext", "statement": "With noise below 2^125 a ciphertext and a key determine the plaintext. But with 256, 512 or 1024 parties the bound on the compressed noise lets larger noise through: for every key and first part of the ciphertexts there are ciphertexts for which the decryption proof succeeds for two different plaintexts under the same key, for all coins and challenges, and the library's decryption returns only one of them.", "quantifier": "all keys, first parts of ciphertexts, plaintexts, commitment randomness, transcripts, primality tests", "why_tests_cant": "uniqueness is about all plaintexts and noises; the ambiguous ciphertexts are never produced by honest encryption", "anchors": ["src/regev/regevProofs.cpp:proveDecryption", "src/regev/regevEnc.cpp:decodePtxt", "src/regev/regevProofs-utils.cpp:VerifierData"]}
{"id": "C72", "title": "Whether a proof is bound to the ciphertext and key it is about", "statement": "It is not: ciphertexts and public keys are never put into the transcript, and the recorded constraints contain each of them only through one inner product with a vector that does not depend on it. If a proof function succeeds, it gives the same result (commitments, constraints, transcript, witnesses) for at least P^(2(k-1)) of the P^(2k) vectors in place of the first part of the new ciphertext, and likewise for its second part, for the ciphertexts that are decrypted and for the public key. With the library's parameters, for every number of parties from 5 on and every run of the program, the round's proofs are therefore also proofs for a vector that is not A*r+e for any r with coefficients up to 2^20 and e with coefficients up to 2^200.", "quantifier": "all parameters, coins, transcripts, inputs and runs that succeed; all small vectors r and e", "why_tests_cant": "it counts the statements that share a proof, P^(2(k-1)) of them, and excludes every small opening of one of them", "anchors": ["src/regev/regevProofs.cpp:proveEncryption", "src/regev/regevProofs.cpp:proveDecryption", "src/regev/regevProofs.cpp:proveKeyGen", "src/main.cpp:main", "include/merlin.hpp:MerlinBPctx"]}
{"id": "C73", "title": "What the constraints of a whole round imply about keys, ciphertexts and shares", "statement": "The linear constraints that a round records hold for some values iff seven batched equations and the parity checks hold. If the values also satisfy the norm constraints (the first one excepted, which the final proof does not enforce) and the challenges are good for them, then the old ciphertexts decrypt to the committed plaintexts under the committed old key, the new ciphertext is an encryption of the committed plaintexts with short randomness and short noise, the public key belongs to the committed new key, which is short, with short noise, and the new plaintexts are shares of the secret that the old ones reconstruct to. The noise of the decryption is bounded if the first norm constraint holds as well. Challenges are not good only for a counted fraction: 2^-64 of the challenge bytes for the smallness test, at most a binomial tail over 2^128 for each of the six compressing matrices, and the batching error of C69 for each of the seven batches.", "quantifier": "all parameters with 5 to 2^28 parties, norm bounds within rounding error, transcripts, coins, inputs of the right lengths (honest or not), all assignments of the variables and all good challenges", "why_tests_cant": "it speaks about every assignment that satisfies the constraints, including those a dishonest prover chooses, and counts challenges among 2^(thousands) possibilities", "anchors": ["src/regev/regevProofs.cpp:proveDecryption", "src/regev/regevProofs.cpp:proveEncryption", "src/regev/regevProofs.cpp:proveKeyGen", "src/regev/regevProofs.cpp:proveReShare", "src/regev/regevProofs.cpp:proveSmallness", "include/regevProofs.hpp:VerifierData"]}
{"id": "C74", "title": "Fingerprints of the CRS and of the public keys, and equality of global keys", "statement": "For a tag of at most 61 bytes the constructor of the global key fills the CRS from the generator seeded with the tag (or copies the given one; a given matrix that is too small is an out-of-range read), starts with all-zero public keys and sets the CRS fingerprint to the hash of the CRS under the tag. Equal CRS fingerprints imply equal tags and equal CRS, or a hash collision is exhibited. With a longer tag the fingerprint is uninitialised memory. The key fingerprint is the hash of the public keys when it was last refreshed; with the same dimensions it binds the public keys up to collisions, but it does not bind the dimensions and goes stale when a key is added. operator== compares only the tags, so that keys with different CRS can be equal.", "quantifier": "all tags, dimensions, given matrices, hash functions and generators", "why_tests_cant": "binding speaks about every pair of keys; the limits need particular tags or shapes that tests do not try", "anchors": ["include/regevEnc.hpp:GlobalKey", "src/regev/regevEnc.cpp:GlobalKey::GlobalKey", "src/regev/regevEnc.cpp:GlobalKey::setKeyHash"]}
{"id": "C75", "title": "Debug checks of commitments", "statement": "The check of a quadratic commitment answers true iff the sum of the commitment and its padding commitment opens to the witness values at the indexes of the constraint with the sum of the randomness; the check of a linear commitment answers true iff the commitment opens to the witness values at the indexes of the terms. Both keep the value at every index, but create zero entries for missing indexes, after which a check that the witness satisfies the constraint can change from false to true. After every honest preparation of a round, the quadratic check accepts each of the ten norm constraints and leaves the witness unchanged.", "quantifier": "all constraints, witnesses, commitments, generators; all prepared rounds", "why_tests_cant": "every witness, including those with missing entries, and every honest round", "anchors": ["include/regevProofs.hpp:checkQuadCommit", "include/regevProofs.hpp:checkLinCommit"]}
{"id": "C76", "title": "Distributions of the secret-key and noise samplers", "statement": "Given uniform random bits, the -1/0/1 sampler gives zero with probability 1/2 and each of 1 and -1 with probability 1/4, for scalars and independently for each coordinate of an element, although the difference of bits is computed without sign. The bounded sampler for n bits gives zero with probability 2^-n and each other integer of absolute value below 2^n with probability 2^-(n+1), independently for each coordinate, as long as 2^(n+1) is at most the modulus; beyond that limit some non-zero value is more likely than that.", "quantifier": "all moduli, numbers of bits and values", "why_tests_cant": "a statement about the number of random choices for each of up to 2^252 values", "anchors": ["include/regevEnc.hpp:ZeroOneScalar", "include/regevEnc.hpp:ZeroOneElement", "include/regevEnc.hpp:BoundedSizeScalar", "include/regevEnc.hpp:BoundedSizeElement"]}
{"id": "C77", "title": "Rounding, conversion and balancing utilities", "statement": "divCeil is the quotient rounded up for positive divisors and fails for zero (for negative divisors it is right exactly when the remainder is at least 2). log2roundUp of a big integer is the least exponent for every non-negative number, and not for negative ones. Converting a vector of scalars to an element never reads outside the vector, ignores extra entries and keeps old coefficients where entries are missing; both round trips are identities. Inner products of elements with scalars are sums over the shorter length, the same in either order. All overloads of balanced give the representatives in (-q/2, q/2] entry by entry, provided the modulus was not changed since their first call; if it was changed to one with another half, they are wrong for some scalar.", "quantifier": "all integers, vectors, matrices, moduli and histories of the modulus", "why_tests_cant": "all integers and lengths; the static variable makes the result depend on the history", "anchors": ["include/algebra.hpp:divCeil", "include/algebra.hpp:log2roundUp", "include/algebra.hpp:conv", "include/algebra.hpp:innerProduct", "include/algebra.hpp:balanced"]}
{"id": "C78", "title": "Command line and the numbers of parties the program can handle", "statement": "The number of parties is what the first argument begins with if that is from 32 to 4096, and 512 if it is another int or there is no argument; otherwise the program throws. For numbers from 32 to 4096 the chosen dimension is a multiple of 4 exactly for 37 to 61, 173 to 288 and 806 to 1348. Whatever the argument, the coins and the transcript, the program gets to the end of its proof functions only if the argument begins with a multiple of 4 in one of these ranges (so never without an argument); then an exception is the only other outcome, and there are coins with which it gets there when the challenges of the transcript are zero.", "quantifier": "all command lines, all coins, CRS, transcripts and inputs", "why_tests_cant": "all texts and all numbers of parties; the failure depends on a dimension computed with logarithms", "anchors": ["src/main.cpp:main", "src/regev/regevEnc.cpp:KeyParams::setParams", "src/algebra/ternaryMatrix.cpp"]}
{"id": "C79", "title": "Initialisation of the curve constants", "statement": "If the cryptographic library was not initialised before and works, the static initialisation of the curve constants does not throw and leaves the encodings of the group's identity and base point in them; default-constructed points are then the identity, and running the initialisation again changes nothing. If anything initialised the cryptographic library before, the initialisation throws.", "quantifier": "all implementations of the library that satisfy its contract, all return codes", "why_tests_cant": "the order of static initialisation and the return code for a second initialisation depend on the rest of the program", "anchors": ["src/25519/curve25519.cpp:Point::init", "include/point25519.hpp:Point"]}
{"id": "C80", "title": "Proofs and commitments say nothing about the witness", "statement": "Assume the base point generates the group. Whatever the committed vector, each group element is its commitment for exactly one randomness. For each constraint, each satisfying vector and each proof the verifier accepts, exactly one choice of the prover's randomness makes the prover output that proof (for quadratic constraints: if the final challenge is not zero). So for two satisfying vectors of the same constraint a permutation of the randomness turns the outcomes (proofs and exceptions) for one into the outcomes for the other (for quadratic constraints except for runs that end in a zero challenge, of which there are as many for the one as for the other); norm proofs reveal the squared norm only. When the final challenge of a quadratic proof is zero the prover goes on and reveals the folded witness.", "quantifier": "all constraints, all pairs of satisfying vectors, all proofs, all transcript hashes, any finite field", "why_tests_cant": "a statement about the distribution of outcomes over all randomness, for all pairs of witnesses", "anchors": ["src/dlproofs/bulletproof.cpp:proveLinear", "src/dlproofs/bulletproof.cpp:proveQuadratic", "src/dlproofs/bulletproof.cpp:proveNormSquared", "include/pedersen.hpp:commit"]}
{"id": "C81", "title": "What the masked reply of the smallness proof reveals", "statement": "Assume the base point generates the group. In one trial of the rejection loop of the smallness proof each pair of a commitment C and a reply that passes the two size checks comes about for exactly as many choices of the randomness as the product over the 128 coefficients of 2 (where the reply equals the unmasked product) or 1 (elsewhere), and no other pair ever comes about. Given C, a trial is accepted for exactly (2B+2)^128 choices whatever the vector, provided its product with the challenge matrix is at most B/128; so the number of trials needed reveals nothing else. For two such vectors the counts differ, summed over all replies, by at most a fraction 128/(B+1) of the accepting choices, but they are all equal only if the products are equal. The library's parameters meet the conditions.", "quantifier": "all vectors, commitments, replies, transcript hashes and parameters; for the parameters all party numbers from 5 to 2^30", "why_tests_cant": "a statement about the distribution of the reply over all randomness, for all pairs of vectors", "anchors": ["src/regev/regevProofs.cpp:proveSmallness", "include/regevEnc.hpp:BoundedSizeElement", "src/regev/regevProofs-utils.cpp:VerifierData"]}
{"id": "C82", "title": "Verification with the library's own transcripts and scalars", "statement": "With the library's Merlin transcripts over Keccak-f[1600] and its scalars modulo the curve order: no transcript operation fails and requests return the number of bytes asked for; scalars have distinct 32-byte encodings that reduce to themselves; of the 2^512 strings of 64 bytes each scalar is the reduction of 2^512/P or one more. The generator F and all challenges a verifier uses are the answers of the transcript after exactly the messages that precede them (constraint, C, the L and R of the levels so far, S), and the sponge input from which a challenge comes is that of another verification only if tag, constraint, C and all L, R, S so far are the same and it is the same challenge. The program of main.cpp, in this setting, has defined behaviour with 256 or 1024 parties and never succeeds with 512.", "quantifier": "all transcript histories, labels, constraints with indexes below 2^32 (linear) or 2^64 (quadratic), all proofs, all randomness; all implementations of the point functions with injective encodings", "why_tests_cant": "a test sees single transcripts; that two different verifications never get the same sponge input is a statement about all pairs, and the reduction is about 2^512 strings", "anchors": ["include/merlin.hpp:MerlinBPctx", "src/libmerlin/merlin.c:merlin_transcript_challenge_bytes", "src/dlproofs/bulletproof.cpp:verifyLinear", "src/dlproofs/bulletproof.cpp:verifyQuadratic", "include/scalar25519.hpp:Scalar", "src/main.cpp:main"]}
{"id": "C83", "title": "What a round of proofs absorbs, and what its challenges are bound to", "statement": "Running the five proof functions of a round (on honest or dishonest inputs of the right lengths), the aggregation and the set-up of the final proofs leaves the transcript in the state after one explicit list of labelled messages: the commitments of each proof before its challenges, every element of the masked reply, then the requests of the aggregation, then one aggregated constraint. Each of the 18 challenges of a round is the answer after exactly the messages that precede it. Two challenges (of any rounds of any parties) come from the same sponge input only if transcript label, round number and challenge number are the same, all commitments and masked replies of all earlier rounds are the same, and all commitments (and the masked reply) sent before this challenge in this round are the same. Not bound, in the round in which they are used: the commitment to the old key and the commitment to the new variable w; the latter can be chosen after all aggregation challenges are known without changing any of them.", "quantifier": "all inputs of the right lengths, all randomness and primality-test outcomes, all transcript histories, any number of rounds; all curves with injective point encodings", "why_tests_cant": "a test compares a few transcripts; that no two different rounds share a sponge input, and that nothing but the listed messages is absorbed, are statements about all of them", "anchors": ["src/regev/regevProofs.cpp:proveDecryption", "src/regev/regevProofs.cpp:proveEncryption", "src/regev/regevProofs.cpp:proveKeyGen", "src/regev/regevProofs.cpp:proveSmallness", "src/regev/regevProofs.cpp:aggregateProver", "include/regevProofs.hpp:MerlinRegev", "src/main.cpp:main"]}
{"id": "C84", "title": "Acceptance of the final proofs of a round does not imply its statements", "statement": "A user would like acceptance of the two final proofs of a round to imply that the committed values satisfy the linear and norm constraints of the round. It does not, in two independent ways. (1) The final quadratic proof has 2601 indexes, which is not a power of two: a prover that knows openings of the commitments of the round to any values whatsoever (violating every constraint) makes two final proofs that the verifier accepts, for all challenges for which an honest prover would succeed. (2) Even without forging the quadratic proof: if the commitment to the old key is not fixed before the round starts, it can be chosen last (it is not absorbed), so that the honest prover's own code, run on values that violate the constraints, produces proofs that are accepted. Also: the statement that main.cpp's verifier takes from the prover's object is the one it would compute from the published values.", "quantifier": "all committed values under G and H, all constraints of the shape a round produces, all sizes, all transcripts and challenges with the stated non-degeneracy, all coins", "why_tests_cant": "tests run the honest prover only; that some dishonest prover is accepted for every choice of committed values is a statement about all of them", "anchors": ["src/main.cpp:main", "src/regev/regevProofs.cpp:aggregateProver", "src/regev/regevProofs.cpp:flattenQuadVer", "src/dlproofs/bulletproof.cpp:verifyQuadratic"]}
{"id": "C85", "title": "A shared secret survives any number of handovers", "statement": "A secret shared with newSharing can be handed from committee to committee: at least as many members of the old committee as its threshold says reshare their shares with newSharing among the new committee (with its own points and threshold), and each new member combines the entries it received with lagrangeCoeffs/getSecret. After any number of such handovers, every step has succeeded, the shares of the last committee are a valid sharing of the original secret with the last threshold, and any set of members as large as that threshold reconstructs the secret. The same holds when each dealing is sent encrypted to the new committee with keys generated and registered as in main.cpp and the library's parameters; and it is enough that each dealing satisfies what the resharing constraints of the proof system say, whoever made it.", "quantifier": "all fields, evaluation points, thresholds, secrets, random coefficients, all sets of dealers and of reconstructing members, histories of any length, all keys, encryption coins and CRS", "why_tests_cant": "tests reconstruct one sharing for a few sets; a statement about every history of handovers needs induction over the history", "anchors": ["src/tools/shamir.cpp:newSharing", "src/tools/shamir.cpp:lagrangeCoeffs", "src/tools/shamir.cpp:getSecret", "src/regev/regevProofs.cpp:proveReShare", "src/regev/regevEnc.cpp:encrypt", "src/regev/regevEnc.cpp:decrypt", "src/main.cpp:main"]}
{"id": "C86", "title": "Watching handovers reveals nothing below the threshold", "statement": "An adversary that corrupts members of every committee, in each fewer than its threshold, and sees the shares of the corrupted members, the entries that they receive of every dealing, and the random coefficients that they draw as dealers, learns nothing about the secret: for any two secrets there is a bijection of all the random choices under which its whole view is the same. This is so for any number of handovers, even if over time every party has been corrupted. The bound is sharp: with as many corrupted members as the threshold in one committee, the view determines the secret.", "quantifier": "all fields, points, thresholds, pairs of secrets, dealers, corrupted sets below the threshold in each committee, histories of any length", "why_tests_cant": "secrecy is a statement about the distribution over all random choices, for all histories", "anchors": ["src/tools/shamir.cpp:newSharing", "src/tools/shamir.cpp:lagrangeCoeffs", "src/tools/shamir.cpp:getSecret", "include/shamir.hpp:SharingParams"]}
{"id": "C87", "title": "What the final linear proof of a round shows", "statement": "The final linear proof of a round shows exactly one thing about the commitments of the round and the extra commitment sent during aggregation: that the extra value is what the variables occurring only in linear constraints contribute to the combined linear constraint. Precisely: from enough accepted proofs (answers to several challenges) for the statement that a verifier computes from the public values, and from openings of the commitments, two explicit linear relations between the public generators are computed; if both are trivial then the extra value is that contribution. So making the verifier accept another value is as hard as finding a non-trivial relation between generators. Conversely, for the right value accepted proofs exist from which only trivial relations come out. Nothing follows about the other variables (C84).", "quantifier": "all rounds (any committee size, party number and layout of the library), commitments, openings, challenges of the aggregation, and all trees of accepted proofs", "why_tests_cant": "tests run the honest prover only; this is about every prover that is accepted", "anchors": ["src/main.cpp:main", "src/regev/regevProofs.cpp:ReadyToVerify::aggregateVerifier1", "src/regev/regevProofs.cpp:ReadyToVerify::aggregateVerifier2", "src/regev/regevProofs.cpp:ReadyToVerify::flattenLinVer", "src/dlproofs/bulletproof.cpp:verifyLinear"]}
{"id": "C88", "title": "What a round of proofs reveals about the prover's secrets", "statement": "Let a party with honest secrets that fit their bounds make the proofs of a round. (1) The 24 commitments it publishes take every possible value, each for exactly one choice of its 24 random scalars: for uniform scalars they are uniform and independent of the secrets. (2) Everything else that is public before the smallness proof (constraints, norms, transcript) is determined by the public statement and these commitments. (3) Hence for two parties with different keys, plaintexts, randomness and noises but the same public statement there is a bijection of their random scalars under which they leave exactly the same public state. (4) From the public state after the smallness proof on: the honest final proofs are accepted for the statement that the verifier computes itself, and every extra commitment together with every accepted pair of final proofs (last quadratic challenge not zero) is output for exactly one choice of the remaining randomness, so it has the same distribution for all witnesses. What the masked vector of the smallness proof reveals is C81.", "quantifier": "all honest inputs and secrets within the bounds, all public parameters, all commitments and accepted proofs, all outcomes of the primality tests; the base point generates the group", "why_tests_cant": "tests see single runs; that a published value carries no information about a secret is a statement about all secrets and the whole distribution of the randomness", "anchors": ["src/main.cpp:main", "src/regev/regevProofs.cpp:proveDecryption", "src/regev/regevProofs.cpp:proveEncryption", "src/regev/regevProofs.cpp:proveKeyGen", "src/regev/regevProofs.cpp:proveReShare", "src/regev/regevProofs.cpp:ReadyToProve::aggregateProver", "src/dlproofs/bulletproof.cpp:proveLinear", "src/dlproofs/bulletproof.cpp:proveQuadratic"]}
{"id": "C89", "title": "An honest prover rarely exceeds the norm bounds", "statement": "(1) For every vector, less than a fraction 2^-121 of the challenge byte strings give a random ternary 128-row (or 128-column) matrix whose product with the vector has a squared norm above 336 times that of the vector. (2) If the squared norms of noise, key and randomness are at most B^2/336, with B the bounds computed by the constructor, then proving decryption, encryption or key generation fails for at most a fraction 2^-121, 3*2^-121 or 2*2^-121 of the challenge bytes, and a whole round before its smallness proof for at most 6*2^-121. (3) In every run of the driver program with the library's parameters these premises hold: key, noises and encryption randomness because of rejection sampling, decryption noise because it is made from them. So with 33 or more parties, dimensions that are multiples of 4 and coins with which sampling does not give up, all steps before the proofs succeed and the proofs can be made except for a fraction 6*2^-121 of the challenges.", "quantifier": "all vectors and dimensions, all challenge byte strings (counted), all honest inputs, all coins and common reference strings, all numbers of parties from 33 below 2^30", "why_tests_cant": "an event of probability 2^-121 is never seen by a test, and its rarity has to hold for every secret vector", "anchors": ["src/regev/regevProofs-utils.cpp:VerifierData::VerifierData", "src/regev/regevProofs.cpp:proveDecryption", "src/regev/regevProofs.cpp:proveEncryption", "src/regev/regevProofs.cpp:proveKeyGen", "src/regev/regevEnc.cpp:internalKeyGen", "src/regev/regevEnc.cpp:internalEncrypt", "src/main.cpp:main", "include/ternaryMatrix.hpp"]}
{"id": "C90", "title": "Key generation and encryption rarely give up, and sample the intended distribution", "statement": "(1) A rejection-sampling loop gives up on exactly the random bits with which every one of its trials is too long. (2) The vector it returns has exactly the distribution of a single trial, conditioned on being short enough. (3) For every dimension the noise loops give up with probability at most (8/(5*len))^trials and the key loops at most (49/(2*len))^trials. (4) With dimension 2048 or more key generation fails with probability at most 2^-250, encryption at most 3*2^-e whenever 2^e*(8/(5n))^25 <= 1. (5) With the parameters the program chooses, all its steps before the proofs succeed, without decryption error, except with probability 2^-35 (5 or more parties) or 2^-100 (33 or more); together with C89, so do the proof functions before the smallness proof.", "quantifier": "all dimensions, bit lengths and trial numbers; all random bits (counted); all numbers of parties from 5 below 2^30; all secrets, sharings and common reference strings", "why_tests_cant": "events this rare are never met by a test, and an exact output distribution cannot be observed", "anchors": ["src/regev/regevEnc.cpp:internalKeyGen", "src/regev/regevEnc.cpp:internalEncrypt", "include/regevEnc.hpp:BoundedSizeElement", "src/main.cpp:main"]}
{"id": "C91", "title": "The smallness proof of an honest prover rarely gives up", "statement": "(1) For every vector, one trial of the smallness proof is accepted for exactly (2B+2)^128 masks for each commitment whose challenge makes the product of the vector pass its size check. (2) The whole proof throws for exactly b^100 choices of its randomness, where b is the number rejected by one trial. (3) With the bounds of the library the product of an honest prover's vector passes its size check for every challenge, even if a four-square search failed. (4) One trial is then accepted for between 36.9% and 37.5% of the choices of its randomness, whatever the vector, and all 100 are rejected for at most a fraction 2^-66. (5) A whole run with 33 or more parties and dimensions that are multiples of 4 reaches the end of the round except for a fraction 2^-100 of the bits of keys and ciphertexts, 6*2^-121 of the challenge bytes and 2^-66 of the randomness of the smallness proof.", "quantifier": "all vectors, transcripts and parameters (counts exact); all honest rounds; all numbers of parties from 33 below 2^30; all secrets, sharings and common reference strings; all random choices (counted)", "why_tests_cant": "a test that never sees the exception says nothing about probability 2^-66, and the acceptance rate must not depend on the secret vector for any vector", "anchors": ["src/regev/regevProofs.cpp:proveSmallness", "include/regevProofs.hpp:VerifierData", "src/regev/regevProofs-utils.cpp:pad2exactNorm", "src/main.cpp:main"]}
{"id": "C92", "title": "How many challenges of the aggregation mislead about the committed values", "statement": "Let n be the number of linear constraints of a round. Whatever values are committed to, all but a fraction (2n+2617)/2^252 of the 64-byte strings from which the library makes the four challenges of the aggregation are reliable: the aggregation succeeds, and its quadratic statement, with the value of the extra variable that the final linear proof enforces, holds exactly if the committed values satisfy all linear constraints, agree on both sides (variable 0 excepted) and have the required norms (block 0 in the weakened form of C63). Over any finite field of q elements, wrong values pass for at most (n+2617)*q^3 of the quadruples of challenges and right values pass for all of them.", "quantifier": "all finite fields; all lists of linear constraints and ten norm constraints on consecutive blocks of 260 variables; all committed values on both sides; all transcripts; all challenge bytes (counted)", "why_tests_cant": "a test draws a handful of challenges; the claim bounds how many of the 2^2048 byte strings hide a violation, for every violation", "anchors": ["src/regev/regevProofs.cpp:aggregateVerifier1", "src/regev/regevProofs.cpp:aggregateVerifier2", "src/regev/regevProofs.cpp:aggregateProver", "include/merlin.hpp:newChallenge"]}
{"id": "C93", "title": "Blinding factors are derived from the whole transcript, all secrets and the entropy", "statement": "From every reachable transcript, newBlindingFactors returns the first and last 64 of 128 bytes that the sponge gives after absorbing the transcript, every secret under its own label, and 32 bytes of entropy. Two calls feed the sponge the same blocks exactly if the transcripts have the same label and history, the entropy is the same, the secrets of the two arrays written one after the other are the same, and the labels are the same (or there are no secrets); so repeated entropy does not repeat the factors of another statement or witness unless the sponge collides. The boundary between the two arrays is not absorbed: one array of 2n secrets gives the same factors as two arrays of n. A call without secrets ignores its label, so the last two factors of a quadratic proof depend on the transcript and the entropy only. With all else equal, different entropy always leads to different sponge states. After merlin_rng_wipe the generator's memory is the same whatever it was used for, and every further use of it is refused.", "quantifier": "all protocol labels, histories of messages and challenges, labels, numbers and contents of secrets, entropy", "why_tests_cant": "injectivity ranges over all pairs of histories and witnesses of any length", "anchors": ["include/merlin.hpp:newBlindingFactors", "src/libmerlin/merlin.c:merlin_rng_commit_witness_bytes", "src/libmerlin/merlin.c:merlin_rng_finalize", "src/libmerlin/merlin.c:merlin_rng_random_bytes", "src/libmerlin/merlin.c:merlin_rng_wipe"]}
{"id": "C94", "title": "What proving and verifying leave in the caller's arrays", "statement": "The low-level functions fold the caller's arrays in place, and the outcome (proof, verdict, transcript, exception) depends on the first n entries only. On return the entries from n on are untouched. Entry i < n of the coefficients holds the sum of those entries j that end in the bits of i, each times the challenges of the remaining bits of j; the witnesses hold the same with the inverse challenges, the generators in addition carry the challenge of their own highest bit, and the offsets given to verifyLinear have been multiplied by the final challenge. So the upper half of each array of scalars keeps its values, and entry 0 is the fully folded vector. Verifying an accepted proof again with the arrays the first verification left, from the same transcript, accepts exactly if a * sum_j c_j z_j b_j * F = 0, with z_j the j-th subset product of the challenges and c_j the number of challenges in it: apart from length one, a statement object can be verified only once.", "quantifier": "all environments, statements, proofs, array lengths n between 1 and 2^63, longer arrays, offsets, transcripts, blinding factors", "why_tests_cant": "the contents are a formula in all challenges for every length; that a second verification fails holds except on a set of measure zero that no sample finds", "anchors": ["src/dlproofs/bulletproof.cpp:proveLinear", "src/dlproofs/bulletproof.cpp:verifyLinear", "src/dlproofs/bulletproof.cpp:proveQuadratic", "src/dlproofs/naive.cpp:foldGenerators"]}
{"id": "C95", "title": "Which ternary products can be computed in place", "statement": "Into an object different from the operand, each of the eight product functions (vector or matrix, from the left or the right, with a TernaryMatrix or a TernaryEMatrix) stores the product, whatever the object held before. If the result object is the operand itself no product except M*A with a TernaryMatrix is right: leftVecMult(v,v,M) and rightVecMult(v,M,v) return without an error and leave only zeros (with unequal dimensions possibly after reading out of bounds), leftMatMult(A,A,M) leaves zeros if M is square and throws otherwise, rightMatMult(A,M,A) is right if M is square and throws otherwise, and with a TernaryEMatrix M = sum M_i X^i rightMatMult(A,M,A) stores (X+M_0)...(X+M_{e-2}) M_{e-1} A, which for degree 2 differs from M*A by M_0 (M_1 - 1) A.", "quantifier": "all commutative rings, all matrices and vectors of all sizes, all previous contents of the result", "why_tests_cant": "the tests multiply into fresh objects only; that the outcome never depends on earlier contents, and what aliased calls do for every shape, are statements about all inputs", "anchors": ["src/algebra/ternaryMatrix.cpp:leftVecMult", "src/algebra/ternaryMatrix.cpp:rightVecMult", "src/algebra/ternaryMatrix.cpp:leftMatMult", "src/algebra/ternaryMatrix.cpp:rightMatMult", "include/algebra.hpp:resize"]}
{"id": "C96", "title": "How many exponentiations proving and verifying take", "statement": "With n values and l the least l with n <= 2^l, every call that returns performs exactly this number of products of a point with a scalar: a commitment n+2, the low-level linear prover 3n+4l, its verifier n+2l+4, the low-level quadratic prover 6n+4l, its verifier 2n+2l+5, and with the commitment included proveLinear(tag,...) 4n+4l+2, verifyLinear n+2l+4, proveQuadratic(tag,...) and proveNormSquared 8n+4l+2, verifyQuadratic and verifyNormSquared 2n+2l+5, for valid and invalid proofs alike. Point::counter, which the program reports, advances by this number less the products whose point is the identity or whose scalar is zero; after a multi-exponentiation it has advanced by exactly the number of positions where both are nonzero.", "quantifier": "all n up to 2^63 (2^20 for the functions that take a constraint), all inputs, proofs, coins, challenges and all counter values before the call", "why_tests_cant": "no test reads the counter; the formula ranges over all sizes, powers of two or not, and all inputs", "anchors": ["include/point25519.hpp:Point::operator*=", "src/dlproofs/naive.cpp:multiExp", "src/dlproofs/naive.cpp:foldGenerators", "src/dlproofs/bulletproof.cpp:proveLinear", "src/dlproofs/bulletproof.cpp:verifyLinear", "src/dlproofs/bulletproof.cpp:proveQuadratic", "src/dlproofs/bulletproof.cpp:verifyQuadratic", "src/dlproofs/bulletproof.cpp:proveNormSquared", "src/main.cpp:main"]}
{"id": "C97", "title": "Proofs with arbitrary bytes in place of points", "statement": "A proof read from a stream carries unchecked bytes as points. If these bytes encode points of the prime-order subgroup, the verifiers do exactly what they do on the points. If a verifier accepts any bytes, then all Ls and Rs are canonical encodings of points of the prime-order subgroup, C and S (in a quadratic proof: S1, S2, unless the last challenge is zero) decode to such points, and the verification equation holds for these points with the challenges hashed from the bytes: points of small order, points outside the subgroup and bytes that are no point are never accepted. No bytes lead to undefined behaviour.", "quantifier": "all proofs whose points are arbitrary byte strings, any numbers of Ls and Rs, all statements, lengths up to 2^63, all challenges, every libsodium that meets its documented contract", "why_tests_cant": "the bytes come from an adversary; tests only verify proofs that the prover made", "anchors": ["src/dlproofs/bulletproof.cpp:verifyLinear", "src/dlproofs/bulletproof.cpp:verifyQuadratic", "include/point25519.hpp:Point::operator*=", "include/point25519.hpp:Point::operator+=", "src/dlproofs/naive.cpp:multiExp", "src/dlproofs/naive.cpp:expSubsetProduct"]}
{"id": "C98", "title": "Proofs with arbitrary bytes in place of scalars", "statement": "The scalars of a proof read from a stream are 32 unchecked bytes and are not hashed. As long as the numbers are below 2^255 (and zero is given as zero) the low-level and the public verifiers do exactly what they do on the residues, so every accepted proof with nonzero scalars has 49 (quadratic: 343) accepted byte strings: accepted proofs are malleable. Bytes for r that are a nonzero multiple of the order never make a verifier return. If the top bit of a (or b) is set, one verification uses two different values: without offsets the equation that is checked differs from that of the protocol by exactly 2^255 times the first generator, with offsets by 2^256 times the first generator exactly when adding the first offset to the response carries out of 256 bits; and there are accepted proofs for which the equation of the protocol does not hold. No bytes lead to undefined behaviour.", "quantifier": "all proofs whose points and scalars are arbitrary byte strings, all statements, offsets, lengths up to 2^63, all challenges, every libsodium that meets its documented contract", "why_tests_cant": "the bytes come from an adversary; tests only verify proofs that the prover made, whose scalars are reduced", "anchors": ["src/dlproofs/bulletproof.cpp:verifyLinear", "src/dlproofs/bulletproof.cpp:verifyQuadratic", "src/dlproofs/naive.cpp:expSubsetProduct", "include/scalar25519.hpp:operator>>", "include/scalar25519.hpp:Scalar::operator+=", "include/point25519.hpp:Point::operator*="]}
{"id": "C99", "title": "What responses with the top bit set can prove", "statement": "A user would like an accepted proof to be convincing whatever its bytes are. For linear proofs it is: from any prover that answers three challenges at each place with any bytes that verify, an opening of the commitment that satisfies the claim can be computed. For quadratic proofs it is not, even for a power of two many values: whoever has committed to vectors u and v can produce a proof, by setting the top bit of a response, that the verifier accepts for the claim that their inner product is <u,v> + 2^255 v_1 (or + 2^255 u_1, or both), which is false if v_1 is not zero; with offsets the same holds with 2^256, by a response for which adding the offset carries. This is all: from a prover whose answers have constant errors e and e' in the first coefficients (each of two possible values), vectors can be computed that satisfy the claim and open the commitment after e and e' are added to their first entries, or else a relation between the generators.", "quantifier": "all vectors, constraints, coins, challenges and offsets; all trees of accepted conversations in which the prover sends arbitrary bytes; every libsodium that meets its documented contract and drops the top bit of a scalar", "why_tests_cant": "existence of a cheating prover, and an extraction argument over all provers; tests only see honest proofs", "anchors": ["src/dlproofs/bulletproof.cpp:verifyLinear", "src/dlproofs/bulletproof.cpp:verifyQuadratic", "include/bulletproof.hpp:verifyQuadratic", "src/dlproofs/naive.cpp:expSubsetProduct", "include/point25519.hpp:Point::operator*=", "include/scalar25519.hpp:Scalar::operator*="]}
{"id": "C100", "title": "What a norm-squared proof shows", "statement": "A user would like verifyNormSquared(indexes, N, pf) to accept only proofs whose commitment is to a vector (committed with both families of generators) of squared norm N. It does not enforce this for any number of variables: the challenge x that tests whether the two committed vectors are the same is drawn before the commitment is seen. For every index set and every N (also N that is no sum of squares of the right number of scalars, such as 2 for one variable) a prover can choose, after x, the zero vector for the generators G and a vector for the generators H so that its proof is accepted. Exactly: a prover that follows the protocol on vectors v+(x,x^2,...) and w-(x,x^2,...) is accepted iff <v,w> + sum_i (w_i-v_i) x^i, times the generator F, equals N times F. Had v and w been fixed before x, this would fail for all but n challenges unless v = w and their squared norm is N.", "quantifier": "all index sets of 1 to 2^20 variables, all claimed norms, vectors, tags, coins, and all behaviours of the hash functions in which the challenge is not zero", "why_tests_cant": "existence of a cheating prover for every statement, and a count over all challenges; tests only run the honest prover", "anchors": ["src/dlproofs/bulletproof.cpp:verifyNormSquared", "src/dlproofs/bulletproof.cpp:proveNormSquared", "include/bulletproof.hpp:verifyNormSquared"]}
{"id": "C101", "title": "A ciphertext that passed the proofs decrypts to what was proved about it", "statement": "Take a round of proofs (decryption, encryption, key generation, small vectors) whose linear and quadratic constraints hold for some committed values, with challenges that do not happen to hide a large vector (the condition of C73 with factor at least 3), for 256, 512 or 1024 parties and the library's own bounds. Then every receiver i whose key in the key matrix came from a successful key generation decrypts the dealer's ciphertext, with decrypt at position i, to the i'th committed plaintext, with every coefficient of the returned noise below 2^125; and any t or more such receivers reconstruct the same secret from what they decrypted, namely the combination with the published Lagrange coefficients of the committed decrypted shares. So a cheating dealer whose proof verifies cannot give honest receivers shares that fail to decrypt or disagree.", "quantifier": "all committed values, ciphertexts, dealers' randomness and noise within what the proofs show, all keys made by the library, receiver positions, sets of receivers of size at least t, challenge functions; n in {256,512,1024}", "why_tests_cant": "ranges over all adversarial ciphertexts that meet the proved bounds, not only those made by encrypt", "anchors": ["src/regev/regevEnc.cpp:GlobalKey::decrypt", "src/regev/regevEnc.cpp:GlobalKey::internalKeyGen", "src/regev/regevProofs.cpp:proveEncryption", "src/regev/regevProofs.cpp:proveSmallness", "src/regev/regevProofs-utils.cpp:VerifierData::VerifierData"]}
{"id": "C102", "title": "What a decryption proof does not show: a plaintext that is off by one can be proved", "statement": "With 256, 512 or 1024 parties the bound that proveDecryption puts on the compressed noise is larger than the compressed form of one step of the plaintext encoding. Take honest keys and honest ciphertexts as the driver program makes them, and a party that chooses a position i and claims that ciphertext i decrypts to its plaintext plus one (or minus one), moving the difference from the plaintext to the noise. For all but a fraction 2*2^-121 of the bytes of the challenge matrix proveDecryption succeeds with the wrong plaintext and what it records is satisfied, although decrypt returns the right plaintext for that ciphertext. With 256 or 1024 parties the party can carry the error through the whole round: it shares the secret that belongs to the wrong plaintexts (which differs from the right one), all proof functions before the smallness proof succeed for all but a fraction 7*2^-121 of the bytes of the challenge matrices, then proveSmallness for all but a fraction 2^-66 of its randomness, and both final proofs are accepted under the same conditions as for an honest party.", "quantifier": "all runs of the driver program up to the proofs (all CRS, keys, coins, parties), all positions i below t, both signs, all transcripts, generators and commitment randomness; the fractions are over all bytes of the challenge matrices and all randomness of the smallness proof", "why_tests_cant": "a test runs the honest prover; the claim is about a dishonest one, for every honest ciphertext and all but a negligible part of the challenges", "anchors": ["src/regev/regevProofs.cpp:proveDecryption", "src/regev/regevProofs.cpp:proveReShare", "src/regev/regevProofs.cpp:proveSmallness", "src/regev/regevProofs-utils.cpp:VerifierData::VerifierData", "src/regev/regevEnc.cpp:GlobalKey::internalDecrypt"]}
{"id": "C103", "title": "Rounding errors of doubles do not matter for the parameters and bounds", "statement": "On every machine whose doubles follow IEEE 754 (conversions, +, -, *, / and sqrt rounded to a nearest double, with any rule for ties), whose log and log2 have a relative error of at most 2^-40 on [2,2^200] and whose NTL RR operations have one of at most 2^-100: (1) KeyParams computes for 256, 512 and 1024 parties the values (k,sigma1,sigma2) = (2944,97,116), (2982,95,115), (3000,94,114), the same as with real numbers; for every number of parties from 5 up to 2^30 it computes what real arithmetic gives unless one of the two logarithms that are rounded up is within 2^-20 of an integer, and even then the parameters satisfy the condition under which honest decryption never fails. (2) The constructor of VerifierData does not throw for the parameters of 5 up to 2^30 parties, and its bounds are as close to the real formulas as the other theorems assume (0.1% and rounding). (3) int(ceil(sqrt(n))) is exact for every nonnegative int. (4) Therefore the driver program started for 512 parties always ends with an exception or an access out of bounds, and with 256 or 1024 parties it succeeds or throws, also with all these numbers computed in doubles.", "quantifier": "all machines that meet the contract (all tie rules and all errors of the logarithms within the bound), all numbers of parties from 5 to 2^30, all ints under the square root; for the program all CRS, coins, generators, transcripts and primality tests without false positives", "why_tests_cant": "a test sees one compiler, libm and NTL; a rounding error that flips a ceil appears only for particular sizes on particular machines", "anchors": ["src/regev/regevEnc.cpp:KeyParams::setParams", "src/regev/regevProofs-utils.cpp:VerifierData::VerifierData", "include/algebra.hpp:multDbl", "include/algebra.hpp:log2BI", "src/regev/regevProofs.cpp:proveDecryption"]}
{"id": "C104", "title": "A prover that convinces the verifier often enough can be made to open its commitment", "statement": "Let a prover, which may compute its messages from the earlier challenges in any way, convince the verifier of a linear statement about n generators for more than a fraction (2k+1)/2^252 of the strings of 64 bytes from which the library makes its challenges, where k = ceil(log2 n); or of a quadratic statement about 2^k generators of each kind for more than a fraction (3k+4)/2^252. Then running this prover again and again from points in the middle of the conversation yields finitely many accepted conversations from which an opening of the commitment is computed, up to a multiple of the generator F. (For quadratic statements, unless a nontrivial relation between the generators is computed.) If F is made from coins after the commitment, so that each value comes from at most nu of M coins, and the prover succeeds for more than nu/M plus this fraction of all coins, then conversations with two different values of F are found; they give an opening whose product is the claimed value, or a nontrivial relation between the generators. For uniform scalar challenges the threshold is a dichotomy for linear proofs: some prover convinces for more than a fraction (2k+1)/q of the challenges exactly if such an opening exists, and then there is one that convinces for all challenges that are not zero.", "quantifier": "all provers (arbitrary functions of the challenges), all statements, commitments and generators, all lengths n up to 2^63 (powers of two for quadratic statements), all ways of making challenges from finitely many coins with at most mu coins for each scalar", "why_tests_cant": "ranges over all cheating provers and counts over all challenges; no test can enumerate either", "anchors": ["src/dlproofs/bulletproof.cpp:verifyLinear", "src/dlproofs/bulletproof.cpp:verifyQuadratic", "src/libmerlin/merlin.c", "include/merlin.hpp:newChallenge"]}
{"id": "C105", "title": "A program that outputs accepted proofs often enough, computing the challenges itself, can be made to open its commitments", "statement": "Let the challenges be values of a random function of everything that was put into or requested from the transcript before (the idealisation under which Fiat-Shamir proofs are analysed). Let a program evaluate this function at most T times, in any order and at any places it chooses from the earlier values, and output a proof. If the verifier accepts its proof of a fixed statement about n generators for more than a fraction (T+k+2)*max(nu,2mu)/N of all functions (linear statements, k = ceil(log2 n)) or (T+k+2)*max(nu,4mu)/N (quadratic statements, n = 2^k), where each scalar challenge comes from at most mu of the N values of the function and each generator F from at most nu, then among the accepted proofs that the program outputs for different functions there are two trees of conversations with one commitment C and different generators F. From these an opening of C with the claimed product is computed, or else a nontrivial relation between the generators. With 64-byte values reduced as in the library, and at most 64 of the 32-byte strings for each generator, the fraction is (T+k+2)/2^250. The same holds for the public functions that verify a proof against a constraint, with a fixed tag.", "quantifier": "all programs (adaptive, any number T of evaluations), all statements, generators and lengths up to 2^63 (powers of two for quadratic statements), all earlier contents of the transcript, all ways of making scalars and points from the values of the function", "why_tests_cant": "ranges over all cheating programs and counts over all functions; a test runs one program against one hash function", "anchors": ["src/dlproofs/bulletproof.cpp:verifyLinear", "src/dlproofs/bulletproof.cpp:verifyQuadratic", "include/bulletproof.hpp:verifyLinear", "include/bulletproof.hpp:verifyQuadratic", "include/merlin.hpp:newChallenge", "include/merlin.hpp:newGenerator"]}
{"id": "C106", "title": "Choosing the statement does not help a program that computes the challenges itself", "statement": "As in C105, but the program also chooses the constraint and the tag, after evaluating the function where it likes, and outputs them with the proof. If the public verifier accepts the output for more than a fraction (T+K+2)*max(nu,2mu)/N of all functions (linear constraints with at most 2^K terms, indexes below 2^32) or (T+K+2)*max(nu,4mu)/N (quadratic constraints about 2^k pairs, k at most K, indexes below 2^64), then among the accepted outputs there are two trees of conversations for one tag, one constraint and one commitment, with different generators F. From these values of the variables in this constraint are computed that satisfy it and open the commitment, or else a nontrivial relation between the generators.", "quantifier": "all programs (adaptive in statement, tag and proof), all numbers T of evaluations, all K up to 20, all ways of making scalars and points from the values of the function, with injective encodings of scalars and points", "why_tests_cant": "ranges over all cheating programs and all statements they may pick; the attack that this excludes (choosing the statement after the challenges) shows only for programs written for it", "anchors": ["include/bulletproof.hpp:verifyLinear", "include/bulletproof.hpp:verifyQuadratic", "include/merlin.hpp:processConstraint", "src/dlproofs/bulletproof.cpp:verifyLinear", "src/dlproofs/bulletproof.cpp:verifyQuadratic"]}
{"id": "C107", "title": "The library's transcripts are the idealised ones for one particular function, given by the sponge on different inputs", "statement": "There is a function of transcript histories such that the bytes merlin_transcript_challenge_bytes returns (up to 64) are its value on everything that happened to the transcript before and on the label and number of the requested bytes, and such that the public verifiers of the library return, on every constraint and every proof, exactly what they return with the transcripts of C105 and C106 for this function. Its values are the output of the Keccak sponge on what was absorbed before, and after different histories, under different labels or for different numbers of bytes, what was absorbed is different. If this function is replaced by a random one, a program that evaluates it at most T times and makes the library's verifiers accept for more than a fraction (T+22)/2^250 of all functions outputs the trees of C106, for a tag, a constraint and a commitment of its choice, so that an opening that satisfies the constraint or a nontrivial relation between the generators can be computed.", "quantifier": "all tags, transcript operations, labels and numbers of bytes up to 64, all constraints and proofs; all programs (adaptive in statement, tag and proof) and all numbers T of evaluations; all groups with injective encodings of points in which at most 64 strings of 32 bytes give the same generator", "why_tests_cant": "it relates the verifiers to an idealised model on all inputs, and ranges over all cheating programs", "anchors": ["src/libmerlin/merlin.c:merlin_transcript_challenge_bytes", "src/libmerlin/merlin.c:merlin_transcript_commit_bytes", "include/merlin.hpp:MerlinBPctx", "include/bulletproof.hpp:verifyLinear", "include/bulletproof.hpp:verifyQuadratic"]}
{"id": "C108", "title": "What is printed for debugging determines what was printed", "statement": "The text that prettyPrint writes for a vector of named scalars, a linear or a quadratic constraint, followed by anything, is the same for two of them exactly when they have the same names in the same order and scalars that are equal modulo the group order (and the same text follows). The number printed for a scalar, by prettyPrint and by printScalar, is the integer nearest to zero that equals it modulo the order, written as an optional minus sign and decimal digits. The text that operator<< writes for a set of integers or of indexes, and the text that printSvec, printElement and printEvec write for a nonempty vector of scalars, a ring element or a nonempty vector of ring elements, followed by anything, determine it. Printing an empty vector with printSvec or printEvec reads out of bounds. debugPrint shows the names and the first byte of each scalar (of a quadratic constraint the first two bytes of its constant), and nothing else. Scalars with different bytes that are equal modulo the order are printed alike by prettyPrint.", "quantifier": "all vectors, constraints, elements and sets of any size, all 32-byte scalars (reduced or not), all texts that follow", "why_tests_cant": "a unique reading of the text for all values is not seen from sample outputs; missing separators or a lost sign show only for particular neighbours", "anchors": ["include/utils.hpp:prettyPrint", "include/utils.hpp:operator<<", "include/utils.hpp:balanced", "include/algebra.hpp:printScalar", "include/algebra.hpp:printSvec", "include/algebra.hpp:printElement", "include/algebra.hpp:printEvec", "src/dlproofs/constraints.cpp:debugPrint"]}
