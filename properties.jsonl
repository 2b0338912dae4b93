{"id": "C01", "title": "Torus/float conversion round trip", "statement": "For every Torus value t, F64ToTorus(TorusToF64(t)) == t, and TorusToF64(t) lies in [0,1).", "quantifier": "all 2^32 Torus values", "why_tests_cant": "The tests check a handful of constants; the claim is about every 32-bit word.", "anchors": ["utils/utils.go: F64ToTorus, TorusToF64"]}
{"id": "C02", "title": "F64ToTorus is accurate, odd and 1-periodic in sign class", "statement": "For every finite float64 d the Torus returned by F64ToTorus(d) differs from d*2^32 (mod 2^32) by less than one unit, F64ToTorus(-d) == -F64ToTorus(d), and adding an integer of the same sign to d leaves the result unchanged.", "quantifier": "all finite float64 inputs (exact rational values)", "why_tests_cant": "The input space is 2^64 floats; truncation toward zero behaves differently on both sides of 0 and examples never show that no other case exists.", "anchors": ["utils/utils.go: F64ToTorus"]}
{"id": "C03", "title": "Integer to bits to integer", "statement": "For every width w in {8,16,32,64} and every value v of that width, ConvertUw(UwToBits(v)) == v; more generally ConvertU64(ToBits(v,size)) == v mod 2^size.", "quantifier": "all values, all sizes (also sizes above 64)", "why_tests_cant": "2^64 values and unboundedly many sizes.", "anchors": ["bitutils/bitutils.go: ConvertU8, ConvertU16, ConvertU32, ConvertU64, ToBits, U8ToBits, U16ToBits, U32ToBits, U64ToBits"]}
{"id": "C04", "title": "Bits to integer to bits, and truncation", "statement": "For every bit slice of length at most w, ToBits(ConvertUw(bits), len(bits)) == bits; for longer slices ConvertUw returns exactly the value of the low w bits (little-endian), silently dropping the rest.", "quantifier": "all bit slices of any length", "why_tests_cant": "Slices are unbounded; tests only use slices of the natural width.", "anchors": ["bitutils/bitutils.go: ConvertU8, ConvertU16, ConvertU32, ConvertU64, ToBits"]}
{"id": "C05", "title": "Boolean encryption round trip, level 0, with its exact noise margin", "statement": "TLWELv0: DecryptBool(EncryptBool(b)) == b if and only if the noise sample, as a signed 32-bit torus error e, satisfies -2^29 <= e < 3*2^29 for true and -3*2^29 <= e < 2^29 for false; in particular it holds whenever |e| < 2^29. It never panics when the key has N entries.", "quantifier": "all keys, all random masks, all noise samples, both messages", "why_tests_cant": "Randomised encryption: a test sees a few masks with tiny noise and never the boundary.", "anchors": ["tlwe/tlwe.go: TLWELv0.EncryptF64, EncryptBool, DecryptBool", "utils/utils.go: GaussianF64"]}
{"id": "C06", "title": "Boolean encryption round trip, level 1", "statement": "The same round trip and margin hold for TLWELv1.", "quantifier": "all keys, masks, noise samples, both messages", "why_tests_cant": "As for level 0; level 1 decryption indexes b through len(key), so the claim also needs the key length.", "anchors": ["tlwe/tlwe.go: TLWELv1.EncryptF64, EncryptBool, DecryptBool"]}
{"id": "C07", "title": "TLWE linear operations are homomorphic on the phase", "statement": "For every key, the phase b - <a,s> of Add, Sub, Neg, AddMul(c), SubMul(c) and AddAssign is exactly the corresponding combination of the operands' phases modulo 2^32 (so noise combines linearly and nothing else is introduced).", "quantifier": "all ciphertexts of the current dimension, all keys, all multipliers", "why_tests_cant": "All 32-bit wrap-around cases; tests decrypt only a few fresh ciphertexts.", "anchors": ["tlwe/tlwe.go: Add, AddAssign, Sub, Neg, AddMul, SubMul"]}
{"id": "C08", "title": "AddAssign is alias-safe", "statement": "AddAssign(other, output) writes t+other to output even when output is the same object as t, as other, or as both.", "quantifier": "all ciphertexts and all aliasing patterns of the three references", "why_tests_cant": "Aliasing patterns are not covered by value-level tests.", "anchors": ["tlwe/tlwe.go: AddAssign"]}
{"id": "C09", "title": "Integer message round trip with power-of-two modulus", "statement": "For messageModulus m a power of two with 1 <= m <= 2^30 and every int message (also negative or >= m), DecryptLWEMessage(EncryptLWEMessage(message)) == message mod m exactly when the signed noise e is, up to a half turn (2^31), in the window -2^31/(2m) <= e < 2^31/(2m).", "quantifier": "all messages, all power-of-two moduli, all masks, all noise in the window", "why_tests_cant": "Noise and masks are random; the tests never drive noise to the edge of the slot.", "anchors": ["tlwe/programmable_encrypt.go: EncryptLWEMessage, DecryptLWEMessage"]}
{"id": "C10", "title": "Integer message round trip with arbitrary modulus", "statement": "For every messageModulus m (not only powers of two) and every message, decryption returns message mod m whenever |noise| + m + 1 <= floor(2^31/m)/2, floating-point rounding in the encoder included.", "quantifier": "all moduli up to 2^15, all messages, masks, all noise within the bound", "why_tests_cant": "Scale is rounded down by integer division on one side and computed in floating point on the other; only a proof covers all moduli.", "anchors": ["tlwe/programmable_encrypt.go: EncryptLWEMessage, DecryptLWEMessage"]}
{"id": "C11", "title": "Bad message moduli panic rather than return garbage", "statement": "DecryptLWEMessage panics (integer division by zero) exactly when messageModulus mod 2^32 is 0 or above 2^31 (or messageModulus is 0); otherwise it returns a value in [0, messageModulus) for positive moduli.", "quantifier": "all int moduli, all ciphertexts", "why_tests_cant": "Error branches for all ints.", "anchors": ["tlwe/programmable_encrypt.go: DecryptLWEMessage"]}
{"id": "C12", "title": "EncryptBits/DecryptBits round trip", "statement": "For every bit slice (any length, also empty), DecryptBits(EncryptBits(bits)) == bits when every noise sample is below 1/8 in absolute value; composing with UwToBits/ConvertUw returns the original integer.", "quantifier": "all bit slices, keys, masks, noise samples below the margin", "why_tests_cant": "Unbounded slice length and random tapes.", "anchors": ["bitutils/bitutils.go: EncryptBits, DecryptBits"]}
{"id": "C13", "title": "Multiplication by X^k, exactly what is computed", "statement": "PolyMulWithXKInPlace(a,k,result) with distinct slices writes, for every int k (negative too), the coefficients of X^k*a in Z[X]/(X^N+1), except that each coefficient that changed sign is one unit (2^-32) below the true negation; it never panics when len(result) >= len(a) >= 1 and touches no entry of result beyond len(a).", "quantifier": "all polynomials of any positive length, all integers k", "why_tests_cant": "Unbounded k and N; tests use a couple of shifts and tolerate small errors.", "anchors": ["poly/buffer_methods.go: PolyMulWithXKInPlace, PolyMulWithXK, PolyMulWithXKDirect"]}
{"id": "C14", "title": "Rotations compose exactly", "statement": "Rotating by j and then by k gives bit-for-bit the same slice as rotating by j+k, and rotating by 2N is the identity, in spite of the one-unit sign-flip error.", "quantifier": "all polynomials, all pairs of integers", "why_tests_cant": "Group law over all integers.", "anchors": ["poly/buffer_methods.go: PolyMulWithXKInPlace"]}
{"id": "C15", "title": "PolyMulWithXKInPlace must not be called in place", "statement": "The function is only correct when result does not alias a: with result == a it returns the rotated polynomial for every input exactly when k is a multiple of N; concrete inputs with k=1 give a wrong result. The pooled PolyMulWithXK runs into this by itself: its pool has four buffers, so rotating the result of the call four calls ago is such a call.", "quantifier": "all aliasing patterns; all k", "why_tests_cant": "The name suggests in-place use is fine; no test calls it aliased.", "anchors": ["poly/buffer_methods.go: PolyMulWithXKInPlace"]}
{"id": "C16", "title": "Gadget decomposition: digits are small and recompose", "statement": "For every torus word x, with the offset computed by the cloud key, each digit produced by DecomposePolyAssign is in [-Bg/2, Bg/2) as a signed integer, and sum_i digit_i * 2^(32-(i+1)*BGBIT) differs from x by exactly x mod 2^(32-L*BGBIT), hence by less than 2^(32-L*BGBIT).", "quantifier": "all polynomials, all L >= 1 and BGBIT >= 1 with L*BGBIT <= 32", "why_tests_cant": "Ranges over all 32-bit words and all parameter choices.", "anchors": ["poly/decomposer.go: DecomposePolyAssign", "cloudkey/cloudkey.go: genDecompositionOffset", "trgsw/trgsw.go: decompositionInPlace"]}
{"id": "C17", "title": "The two decomposition implementations agree", "statement": "decompositionInPlace (used by the batch path) and DecomposePolyAssign (used by the evaluator) produce the same digits for every TRLWE, whatever the buffers held before.", "quantifier": "all TRLWE ciphertexts, all previous buffer contents, all parameter sets", "why_tests_cant": "Two separately written loops; equality on all inputs and dirty buffers is not testable.", "anchors": ["poly/decomposer.go: DecomposePolyAssign", "trgsw/trgsw.go: decompositionInPlace"]}
{"id": "C18", "title": "Bit reversal is the bit-reversal permutation", "statement": "bitReverseInPlace on a slice of length 2^k moves the element at index i to the index whose k-bit binary expansion is that of i reversed; applying it twice is the identity.", "quantifier": "all power-of-two lengths and all contents", "why_tests_cant": "Unbounded k.", "anchors": ["poly/poly_evaluator.go: bitReverseInPlace"]}
{"id": "C19", "title": "Fourier transform round trip", "statement": "In exact arithmetic ToPoly(ToFourierPoly(p)) == p for every polynomial of every power-of-two degree N >= 16.", "quantifier": "all polynomials, all valid degrees", "why_tests_cant": "2^(32 N) inputs and unbounded N.", "anchors": ["poly/fourier_transform.go: ToFourierPolyAssign, ToPolyAssign, ToPolyAssignUnsafe, fftInPlace, ifftInPlace", "poly/poly_evaluator.go: genTwiddleFactors, NewEvaluator"]}
{"id": "C20", "title": "FFT multiplication is negacyclic multiplication", "statement": "In exact arithmetic MulPoly(p0,p1) is the product in (Z/2^32)[X]/(X^N+1) for every pair of polynomials and every power-of-two N >= 16; MulAddPolyAssign and MulSubPolyAssign add and subtract that product.", "quantifier": "all pairs of polynomials, all valid degrees", "why_tests_cant": "The tests compare to a naive product on a few random small inputs.", "anchors": ["poly/poly_mul.go: MulPoly, MulPolyAssign, MulAddPolyAssign, MulSubPolyAssign", "poly/fourier_ops.go: MulFourierPolyAssign, MulAddFourierPolyAssign"]}
{"id": "C21", "title": "Floating-point FFT multiplication error bound", "statement": "With every floating-point operation rounded with relative error at most 2^-53, math.Pi the nearest double and cmplx.Exp accurate to 2^-52, MulPoly differs from the exact negacyclic product by at most an explicit bound in N and the size of the second operand, and so does an accumulated sum of products. For a second operand with coefficients in {-1,0,1} the product is exact for N <= 2048, hence for every parameter set.", "quantifier": "all polynomials, all rounding functions satisfying the standard model, all choices of the compiler to fuse a multiplication with an addition or subtraction", "why_tests_cant": "Rounding errors depend on every input bit; no finite test bounds the worst case.", "anchors": ["poly/fourier_transform.go: fftInPlace, ifftInPlace, floatModQInPlace", "poly/fourier_ops.go: elementWiseMulCmplxAssign"]}
{"id": "C22", "title": "SIMD block accesses stay in bounds", "statement": "For polynomials whose length is a power of two >= 16 and buffers of that length, no Fourier transform or Fourier operation reads or writes outside its slices (the code uses unsafe pointer casts of 4 and 8 elements that Go does not bounds-check).", "quantifier": "all valid degrees, all contents", "why_tests_cant": "Memory safety of unchecked accesses for all lengths; a test that does not crash shows nothing.", "anchors": ["poly/fourier_transform.go", "poly/fourier_ops.go"]}
{"id": "C23", "title": "Polynomial constructors validate the degree", "statement": "NewPoly/NewFourierPoly/NewPolyAligned/NewFourierPolyAligned return an all-zero slice of length exactly N for N a power of two >= 16 and panic for every other int; the aligned versions never slice out of range.", "quantifier": "all int degrees", "why_tests_cant": "All ints, including negatives and the bit trick n&(n-1).", "anchors": ["poly/poly.go: NewPoly, NewFourierPoly, isPowerOfTwo, log2", "poly/aligned.go: NewPolyAligned, NewFourierPolyAligned"]}
{"id": "C24", "title": "TRLWE boolean round trip", "statement": "TRLWELv1: DecryptBool(EncryptBool(bits)) == bits when every coefficient's noise is within the +-1/8 margin, for every deterministic polynomial multiplier (the same key product is added and removed), however inaccurate.", "quantifier": "all bit vectors of length N, all keys, masks and noise vectors within the margin", "why_tests_cant": "Random masks and noise, 2^N messages.", "anchors": ["trlwe/trlwe.go: EncryptF64, EncryptBool, DecryptBool"]}
{"id": "C25", "title": "Sample extraction keeps the k-th coefficient", "statement": "For every k < N the TLWE returned by SampleExtractIndex(trlwe,k) has, under the same key, phase equal to the k-th coefficient of the TRLWE phase plus exactly sum_{i>k} s_i units (the cost of negating with ^0 - a); for k = N-1 it is exact. SampleExtractIndexAssign writes the same values whatever the output held.", "quantifier": "all TRLWE ciphertexts, all keys, all indices", "why_tests_cant": "Exact error term for all inputs; tests only decrypt booleans at 1/8 margin.", "anchors": ["trlwe/trlwe.go: SampleExtractIndex", "trlwe/trlwe_ops.go: SampleExtractIndexAssign"]}
{"id": "C26", "title": "SampleExtractIndex2 is unusable with every shipped parameter set", "statement": "For every security level (also unknown ints) SampleExtractIndex2 panics on a TRLWE of the current dimension, and so does every bootstrap that skips key switching; if the dimensions agreed it would equal SampleExtractIndex.", "quantifier": "all SecurityLevel values, all TRLWE inputs", "why_tests_cant": "Must hold for all inputs; the only caller is private and never exercised.", "anchors": ["trlwe/trlwe.go: SampleExtractIndex2", "gates/gates.go: bootstrapWithoutKeySwitch", "params/params.go"]}
{"id": "C27", "title": "TRGSW encryption carries the message on the gadget", "statement": "For every torus p, EncryptTorus returns 2L rows whose phases are (noise_i - p*s*2^(32-(i+1)*BGBIT)) for i<L and (noise_i + p*2^(32-(i-L+1)*BGBIT)) for i>=L.", "quantifier": "all p, keys, masks, noise", "why_tests_cant": "Random tapes; internal rows are not inspected by tests.", "anchors": ["trgsw/trgsw.go: EncryptTorus"]}
{"id": "C28", "title": "External product multiplies the phase", "statement": "The phase of ExternalProductWithFFT / ExternalProductAssign applied to a TRGSW encryption of p and a TRLWE c is p*phase(c) + noise, with an explicit noise term (digits times row noise, minus p times the truncated part of c) and the bound 2*L*N*(Bg/2)*E + |p|*(1+|s|_1)*2^(32-L*BGBIT).", "quantifier": "all TRGSW/TRLWE ciphertexts, keys, parameters", "why_tests_cant": "Noise term for all inputs.", "anchors": ["trgsw/trgsw.go: ExternalProductWithFFT", "evaluator/evaluator.go: ExternalProductAssign"]}
{"id": "C29", "title": "CMUX selects", "statement": "CMUX / CMuxAssign with a TRGSW encryption of bit c returns a ciphertext whose phase is phase(in1) for c=0 and phase(in2) for c=1, up to the external product noise.", "quantifier": "all ciphertexts, keys, both bits", "why_tests_cant": "As above.", "anchors": ["trgsw/trgsw.go: CMUX", "evaluator/evaluator.go: CMuxAssign"]}
{"id": "C30", "title": "CMuxAssign aliasing", "statement": "CMuxAssign gives the documented result when ctOut is the same object as ct0 (as blind rotation uses it); when ctOut is the same object as ct1 the result is wrong: the output is ct0 plus the external product of 0.", "quantifier": "all ciphertexts; all aliasing patterns", "why_tests_cant": "Aliasing cannot be settled by value tests.", "anchors": ["evaluator/evaluator.go: CMuxAssign"]}
{"id": "C31", "title": "Modulus switching inside blind rotation", "statement": "Every mask coefficient and the body are scaled to exponents that are the nearest integer to x*2N/2^32 modulo 2N (ties upward), the uint32 wrap-around of a and the non-wrapping 64-bit computation of b being equivalent modulo 2N; the exponents passed on are in range.", "quantifier": "all torus words, all NBIT with N = 2^NBIT", "why_tests_cant": "All 2^32 words; the last half-interval wraps.", "anchors": ["trgsw/trgsw.go: BlindRotate", "evaluator/evaluator.go: BlindRotateAssign"]}
{"id": "C32", "title": "Blind rotation rotates the test vector by the switched phase", "statement": "The phase of the blind rotation result is X^(-p)*testvec where p = b~ - sum a~_i s_i mod 2N, plus an explicit error: the sum over the steps of that step's CMUX error rotated by the remaining steps.", "quantifier": "all ciphertexts, test vectors, binary keys, bootstrapping keys", "why_tests_cant": "Composition of hundreds of CMUX steps with random keys.", "anchors": ["trgsw/trgsw.go: BlindRotate", "evaluator/evaluator.go: BlindRotateAssign"]}
{"id": "C33", "title": "Key switching preserves the phase", "statement": "The phase of IdentityKeySwitching(c, ksk) under the level-0 key equals the phase of c under the level-1 key up to |s1|_1 * 2^(31-BASEBIT*IKS_T) + N*IKS_T*E, where E bounds the noise of the key-switching key.", "quantifier": "all ciphertexts, binary keys, key-switching keys with noise at most E, all parameters with BASEBIT*IKS_T <= 31", "why_tests_cant": "All inputs; digits and carries in the rounding.", "anchors": ["trgsw/trgsw.go: IdentityKeySwitching", "trgsw/keyswitch.go: IdentityKeySwitchingAssign"]}
{"id": "C34", "title": "Key switching into a dirty buffer", "statement": "IdentityKeySwitchingAssign writes exactly what IdentityKeySwitching returns, whatever the output buffer held before.", "quantifier": "all ciphertexts, keys and previous buffer contents", "why_tests_cant": "Previous state of a reused buffer is a history property.", "anchors": ["trgsw/keyswitch.go: IdentityKeySwitchingAssign", "trgsw/trgsw.go: IdentityKeySwitching"]}
{"id": "C35", "title": "Key-switching index discipline", "statement": "Key switching never indexes outside a key-switching key of BASE*T*N entries, never touches an entry with digit 0, and different (coefficient, level, digit) triples use different entries.", "quantifier": "all ciphertexts, all parameters", "why_tests_cant": "In-range for every input.", "anchors": ["trgsw/trgsw.go: IdentityKeySwitching", "cloudkey/cloudkey.go: genKeySwitchingKey"]}
{"id": "C36", "title": "Key generation is schedule independent", "statement": "The goroutines of genKeySwitchingKey and genBootstrappingKey write pairwise different entries, so for every interleaving of their writes the resulting key is the same as sequential generation with the same per-entry ciphertexts, and every entry that key switching can read has been written.", "quantifier": "all interleavings of the goroutines' writes, all sizes", "why_tests_cant": "Schedules cannot be enumerated by tests.", "anchors": ["cloudkey/cloudkey.go: genKeySwitchingKey, genBootstrappingKey"]}
{"id": "C37", "title": "Cloud key entries encrypt what evaluation expects", "statement": "Entry (i,j,k) of the key-switching key has phase k*s1_i*2^(32-(j+1)*BASEBIT) plus that entry's noise, bootstrapping key i encrypts s0_i, the test vector is the trivial encryption of the constant 1/8, and the decomposition offset is sum_i (Bg/2)*2^(32-(i+1)*BGBIT).", "quantifier": "all secret keys, masks, noise, parameter sets", "why_tests_cant": "Random and large; float computation of k*s/2^shift must be exact for all.", "anchors": ["cloudkey/cloudkey.go: NewCloudKey, genKeySwitchingKey, genBootstrappingKey, genTestvec, genDecompositionOffset"]}
{"id": "C38", "title": "Bootstrapping is history independent", "statement": "The value written by BootstrapAssign depends only on the input ciphertext, test vector and keys: for every state of the evaluator's internal buffers (any previous operations) the result is the same, and the inputs are not modified unless the output aliases them.", "quantifier": "all evaluator states reachable or not with correctly sized buffers, all inputs", "why_tests_cant": "Histories are unbounded; stale-buffer bugs appear only after particular sequences.", "anchors": ["evaluator/evaluator.go: BootstrapAssign, BlindRotateAssign, CMuxAssign, ExternalProductAssign", "evaluator/buffers.go"]}
{"id": "C39", "title": "BootstrapAssign may write onto its input", "statement": "BootstrapAssign with ctOut the same object as ctIn gives the same value as with a separate output.", "quantifier": "all ciphertexts and states", "why_tests_cant": "Aliasing.", "anchors": ["evaluator/evaluator.go: BootstrapAssign"]}
{"id": "C40", "title": "Lifetime of pooled bootstrap results", "statement": "A ciphertext returned by Evaluator.Bootstrap (or BootstrapLUTTemp) keeps its value through any sequence containing at most three further pool results and is overwritten by the fourth; results of BootstrapLUT, BootstrapFunc and the gates are copies and are never overwritten. ResetBuffers shortens this: after a reset the next result may overwrite the latest one.", "quantifier": "all sequences of evaluator operations", "why_tests_cant": "Unbounded histories of round-robin buffer reuse.", "anchors": ["evaluator/buffers.go: GetNextResult, Reset", "evaluator/evaluator.go: Bootstrap", "evaluator/programmable_bootstrap.go: BootstrapLUT, BootstrapLUTTemp", "gates/gates.go: bootstrap, bootstrapTemp"]}
{"id": "C41", "title": "Evaluator.ShallowCopy yields a working evaluator", "statement": "A copy made by Evaluator.ShallowCopy is documented as safe for concurrent use; every bootstrap or external product on it should return what the original returns. (It does not: the copied decomposer has one level, so each such call panics.)", "quantifier": "all evaluators and all parameter sets", "why_tests_cant": "No test bootstraps on a copy.", "anchors": ["evaluator/evaluator.go: ShallowCopy, ExternalProductAssign", "poly/decomposer.go: GetPolyDecomposedBuffer"]}
{"id": "C42", "title": "Pooled and evaluator blind rotation agree", "statement": "trgsw.BlindRotate (rotation and TRLWE pools, round robin of four) returns bit for bit the value of Evaluator.BlindRotateAssign for every pool state: no buffer still in use is ever handed out again during one rotation.", "quantifier": "all inputs, all pool indices and contents", "why_tests_cant": "Aliasing of pooled buffers over hundreds of iterations.", "anchors": ["trgsw/trgsw.go: BlindRotate, CMUX, ExternalProductWithFFT", "poly/buffer_methods.go: GetTRLWEBuffer, GetRotationBuffer"]}
{"id": "C43", "title": "Two-input gates compute their truth table", "statement": "NAND, AND, OR, XOR, XNOR, NOR, ANDNY, ANDYN, ORNY, ORYN return a ciphertext decrypting to the stated Boolean function for every pair of inputs, whenever the noise of the prepared input and of the bootstrap are within the margins.", "quantifier": "all ciphertext pairs encrypting bits with noise in the margin, all keys", "why_tests_cant": "Keys, masks and noise are random; tests run four cases on one key.", "anchors": ["gates/gates.go", "evaluator/gates_helper.go"]}
{"id": "C44", "title": "MUX", "statement": "MUX(a,b,c) decrypts to b if a is true and to c otherwise, also when its arguments are the same ciphertext, under the margins of its three bootstraps.", "quantifier": "all ciphertext triples, all aliasing of arguments", "why_tests_cant": "Composition plus result-buffer reuse.", "anchors": ["gates/gates.go: MUX"]}
{"id": "C45", "title": "NOT, Copy and Constant need no key", "statement": "NOT flips the decryption for every non-boundary phase, Copy preserves the ciphertext bit for bit, Constant(b) decrypts to b under every key (Constant(false) is one unit off -1/8).", "quantifier": "all ciphertexts, all keys", "why_tests_cant": "All phases, including the boundary where NOT fails.", "anchors": ["gates/gates.go: NOT, Copy, Constant"]}
{"id": "C46", "title": "Arbitrary circuits", "statement": "For every Boolean circuit built from the gates, evaluating it homomorphically gates-wise on encrypted inputs decrypts to the circuit's Boolean value, provided each bootstrap's realised noise stays within the margin; noise does not accumulate with depth.", "quantifier": "all circuits of any size and depth, all inputs", "why_tests_cant": "Infinitely many circuits.", "anchors": ["gates/gates.go"]}
{"id": "C47", "title": "Ripple-carry addition with gates", "statement": "The full-adder/ripple-carry construction from XOR, AND, OR adds two encrypted w-bit numbers: decrypting and converting gives (a+b+carry) for every width w.", "quantifier": "all widths, all operands", "why_tests_cant": "Unbounded width.", "anchors": ["README.md: full adder example", "gates/gates.go: XOR, AND, OR", "bitutils/bitutils.go"]}
{"id": "C48", "title": "Batch gates agree with the single gates", "statement": "BatchNAND, BatchAND, BatchOR, BatchXOR, BatchNOR, BatchXNOR return, for every input list, the list of results of NAND, AND, OR, XOR, NOR, XNOR on the pairs. (False for BatchXNOR, which computes XOR.)", "quantifier": "all input lists of any length, all keys", "why_tests_cant": "Lists of any length; BatchXNOR and BatchNOR have no test.", "anchors": ["gates/gates.go: BatchNAND, BatchAND, BatchOR, BatchXOR, BatchNOR, BatchXNOR"]}
{"id": "C49", "title": "Batch blind rotation is schedule independent", "statement": "BatchBlindRotate's i-th result is the blind rotation of the i-th input for every goroutine schedule and every behaviour of the evaluator pool. (False: results alias the pooled evaluator's buffers; a schedule in which a second goroutine reuses the evaluator overwrites the first result.)", "quantifier": "all goroutine schedules and pool behaviours, all batch sizes", "why_tests_cant": "A race that depends on the schedule.", "anchors": ["trgsw/trgsw.go: BatchBlindRotate, BlindRotate, evaluatorPool"]}
{"id": "C50", "title": "Gates follow the current security level", "statement": "After setting params.CurrentSecurityLevel at runtime and generating keys at that level, the gates work at that level. (False: the package-level evaluator is sized once at start-up for the default level. It fits the 128-bit level, Uint1 and unknown levels; at Uint2 to Uint8 every gate panics; at 80- and 110-bit a gate panics unless the bootstrapped mask rounds to zero.)", "quantifier": "all security levels, all ciphertexts", "why_tests_cant": "Tests run the gates at one level per process.", "anchors": ["gates/gates.go: init, globalEval", "params/params.go: CurrentSecurityLevel", "trgsw/keyswitch.go: IdentityKeySwitchingAssign"]}
{"id": "C51", "title": "Encoder round trip", "statement": "For every message modulus m between 1 and 2^29 and every int message, Decode(Encode(message)) == message mod m, floating-point rounding included; Encode(i) == Encode(i mod m). EncodeWithCustomScale encodes message mod m (never negative) with the given scale, as an encoder made with that scale does.", "quantifier": "all moduli up to 2^29, all ints, all scales", "why_tests_cant": "Floating-point scale 1/(2m) is inexact for most m.", "anchors": ["lut/encoder.go: NewEncoder, NewEncoderWithScale, Encode, EncodeWithCustomScale, Decode, DecodeBool"]}
{"id": "C52", "title": "Lookup table contents", "statement": "For every function f and modulus m, the table made by GenLookUpTable gives, when rotated by the switched phase p, the encoding of f(x) for every p in [ (2x-1)N/2m , (2x+1)N/2m ) and minus that encoding for p shifted by N; the slots tile the whole torus.", "quantifier": "all functions, all moduli m with 2m dividing N (and with rounding for others), all phases", "why_tests_cant": "All functions and all phases.", "anchors": ["lut/generator.go: GenLookUpTable, GenLookUpTableAssign, divRound"]}
{"id": "C53", "title": "GenLookUpTable variants agree", "statement": "GenLookUpTableFull(f) with f returning encodings equals GenLookUpTable, and both overwrite every coefficient of the output table whatever it held.", "quantifier": "all functions, moduli, previous contents", "why_tests_cant": "All functions; dirty output.", "anchors": ["lut/generator.go: GenLookUpTableAssign, GenLookUpTableFullAssign"]}
{"id": "C54", "title": "GenLookUpTableCustom uses the custom encoding and leaves the generator unchanged", "statement": "GenLookUpTableCustom returns the table of f modulo the custom modulus with the custom scale, independent of the generator's own encoder; after it returns, the generator's encoder is the one it had before. It panics exactly when f panics on a message, and then (if the caller recovers) the generator keeps the custom encoder.", "quantifier": "all functions, moduli, scales, and all points at which f may panic", "why_tests_cant": "Crash points inside the callback.", "anchors": ["lut/generator.go: GenLookUpTableCustom"]}
{"id": "C55", "title": "ModSwitch rounds to the nearest slot and stays in range", "statement": "Generator.ModSwitch(x) is the nearest integer to x*size/2^32 modulo size, ties away from zero, and always lies in [0,size).", "quantifier": "all torus words, all table sizes that are powers of two", "why_tests_cant": "All 2^32 words.", "anchors": ["lut/generator.go: ModSwitch"]}
{"id": "C56", "title": "Programmable bootstrapping evaluates the function", "statement": "BootstrapFunc/BootstrapLUT with function f on an encryption of x with modulus m decrypts (DecryptLWEMessage) to f(x) mod m, whenever the switched phase stays in the slot of x and the bootstrap noise is below half a slot.", "quantifier": "all functions, messages, keys, noise within margins", "why_tests_cant": "All functions and random tapes.", "anchors": ["evaluator/programmable_bootstrap.go: BootstrapFunc, BootstrapFuncAssign, BootstrapLUT, BootstrapLUTTemp, BootstrapLUTAssign"]}
{"id": "C57", "title": "Nibble addition by programmable bootstrapping", "statement": "The 8-bit addition scheme of examples/add_two_numbers (two nibbles, modulus 32, three programmable bootstraps) returns (a+b) mod 256 for all a,b when its bootstraps stay within margin.", "quantifier": "all pairs of bytes, all keys and noise within margins", "why_tests_cant": "The example checks one pair.", "anchors": ["examples/add_two_numbers/main.go", "evaluator/programmable_bootstrap.go"]}
{"id": "C58", "title": "LookUpTable copies are independent", "statement": "NewLookUpTable gives a table of zeros in memory of its own; Copy returns a table with equal contents that is unaffected by any later change to the original; CopyFrom and Clear set every coefficient, and Clear leaves the contents of a new table.", "quantifier": "all tables and later mutations", "why_tests_cant": "Aliasing/history.", "anchors": ["lut/lut.go: NewLookUpTable, Copy, CopyFrom, Clear"]}
{"id": "C59", "title": "Public-key encryption decrypts", "statement": "A ciphertext made with PublicKeyLv0.EncryptF64/EncryptBool decrypts under the matching secret key for every outcome of the random subset and signs, provided the selected zero-encryption noises plus fresh noise stay below 1/8; the phase is exactly message + signed sum of the selected noises + fresh noise.", "quantifier": "all keys, all public keys, all coin sequences", "why_tests_cant": "4^(2n) coin outcomes.", "anchors": ["proxyreenc/proxyreenc.go: NewPublicKeyLv0, EncryptF64, EncryptBool"]}
{"id": "C60", "title": "Re-encryption transforms to the other key", "statement": "ReencryptTLWELv0 with a key made by the symmetric or the asymmetric constructor (any basebit,t with 1 <= basebit*t <= 31) returns a ciphertext whose phase under keyTo equals the input's phase under keyFrom up to |keyFrom|_1*2^(31-basebit*t) + n*t*E; hence DecryptBool and DecryptLWEMessage are preserved when the margin allows.", "quantifier": "all ciphertexts, binary keys, re-encryption keys, decomposition parameters", "why_tests_cant": "Random keys and all inputs.", "anchors": ["proxyreenc/proxyreenc.go: NewProxyReencryptionKeySymmetricWithParams, NewProxyReencryptionKeyAsymmetricWithParams, ReencryptTLWELv0"]}
{"id": "C61", "title": "Re-encryption chains", "statement": "Re-encrypting along any chain of keys k0 -> k1 -> ... -> kh accumulates at most h times the single-hop error.", "quantifier": "all chains of any length", "why_tests_cant": "Unbounded chain length.", "anchors": ["proxyreenc/proxyreenc.go: ReencryptTLWELv0"]}
{"id": "C62", "title": "Re-encryption parameter limits", "statement": "With custom parameters basebit*t >= 32 (basebit <= 62, so that 1<<basebit is an int), ReencryptTLWELv0 panics (negative shift) for every input; with basebit*t <= 31 and matching sizes it never panics and never modifies its inputs.", "quantifier": "all basebit <= 62 and t, and all ciphertexts", "why_tests_cant": "All parameter combinations.", "anchors": ["proxyreenc/proxyreenc.go: ReencryptTLWELv0, NewProxyReencryptionKeySymmetricWithParams"]}
{"id": "C63", "title": "Parameter sets are mutually consistent", "statement": "For every int value of CurrentSecurityLevel (unknown values select the 128-bit set) N = 2^NBIT is a power of two >= 16 shared by the level-1 structures, BG = 2^BGBIT, 1 <= L, L*BGBIT <= 32, 2L <= 8, 1 <= BASEBIT*IKS_T <= 31, and the bootstrapping and key-switching noise parameters are the level-1 and level-0 ones.", "quantifier": "all ints", "why_tests_cant": "The switch has a default branch for all other ints.", "anchors": ["params/params.go: GetTLWELv0, GetTLWELv1, GetTRLWELv1, GetTRGSWLv1, KSKAlpha, BSKAlpha"]}
{"id": "C64", "title": "Block count covers the LWE dimension", "statement": "GetBlockCount() is the least number of blocks of BlockSize that covers the LWE dimension, at every level.", "quantifier": "all security levels and, for the formula, all dimensions and block sizes", "why_tests_cant": "All values.", "anchors": ["params/params.go: GetBlockCount, UseBlockBlindRotation"]}
{"id": "C65", "title": "Secret keys are binary and well sized", "statement": "NewSecretKey returns level-0 and level-1 keys of exactly the current dimensions with all entries 0 or 1, whatever the random source yields.", "quantifier": "all random tapes, all parameter sets", "why_tests_cant": "All tapes.", "anchors": ["key/key.go: NewSecretKey"]}
{"id": "C66", "title": "Confidentiality (security) claims", "statement": "A proxy learns nothing about plaintexts; public keys and re-encryption keys reveal nothing about secret keys; parameter sets give the advertised bit security.", "quantifier": "all polynomial-time adversaries", "why_tests_cant": "Computational hardness claim.", "anchors": ["proxyreenc/proxyreenc.go: package comment", "params/params.go: package comment"]}
{"id": "C67", "title": "The library decrypts gates and circuits correctly with its own float64 transform", "statement": "At every security level, with the library's own float64 Fourier transform (standard rounding model, complex exponential within 2^-52), keys from NewCloudKey, encryptions from EncryptBool and the gates of the evaluator, every gate and every straight-line circuit runs without a panic and decrypts to its Boolean value as long as the noise stays in the margin. The rounding error of the transform contributes at most an explicit bound per level.", "quantifier": "all security levels, keys, random tapes, goroutine schedules of key generation, circuits, inputs, all roundings within half an ulp and all choices of fused multiply-adds by the compiler", "why_tests_cant": "The rounding of every operation, all tapes and all circuits are quantified over.", "anchors": ["gates/gates.go", "cloudkey/cloudkey.go: NewCloudKey", "evaluator/evaluator.go: Bootstrap", "poly/fourier_transform.go"]}
{"id": "C68", "title": "Programmable bootstrapping is correct with the float64 transform", "statement": "At every security level, with the library's own float64 transform, encrypting a message modulo 2^k, evaluating a look-up table for any function by programmable bootstrapping and decrypting gives the function value, provided the noise before and after stays in the margins.", "quantifier": "all levels, functions, moduli 2^k with 2^(k+1) dividing N, messages, keys, tapes and roundings", "why_tests_cant": "All functions, messages, tapes and roundings.", "anchors": ["evaluator/evaluator.go: BootstrapFunc, BootstrapLUT", "lut/generator.go", "poly/fourier_transform.go"]}
{"id": "C69", "title": "Fourier-domain programs compute the ring operations", "statement": "In exact arithmetic, any sequence of ToFourierPolyAssign, Add, Sub, Mul, MulAdd, MulSub, FloatMul, FloatMulAdd, CopyFrom and Clear calls on Fourier polynomials, and of the calls ToFourierPoly, AddFourierPoly, SubFourierPoly, MulFourierPoly and Copy that return a new one, with any sharing between operands and outputs, followed by ToPolyAssign, gives the coefficients that the same program computes in (Z/2^32)[X]/(X^N+1).", "quantifier": "all degrees the evaluator accepts, all programs, all loaded polynomials, all aliasing patterns", "why_tests_cant": "Unboundedly many programs and aliasing patterns; the tests exercise one product.", "anchors": ["poly/fourier_ops.go", "poly/fourier_transform.go", "poly/poly.go: CopyFrom, Clear"]}
{"id": "C70", "title": "Concurrent bootstraps: separate evaluators are safe, a shared one is not", "statement": "Goroutines that bootstrap at the same time on separate evaluators each get exactly the result of the same call made alone, under every schedule, without panics (evaluator/buffers.go: \"create separate instances for concurrent operations\"). Goroutines that share an evaluator, as concurrent single gates share globalEval, do not: there is a schedule under which one gate returns the other gate's value.", "quantifier": "all schedules, all numbers of goroutines, all inputs, keys and evaluator states", "why_tests_cant": "All interleavings; a race may never show up in a test run.", "anchors": ["evaluator/buffers.go: Thread Safety comment", "gates/gates.go: globalEval, bootstrap", "evaluator/evaluator.go: BootstrapAssign"]}
{"id": "C71", "title": "The published bootstrapping key carries noise", "statement": "At every security level a Gaussian draw of ordinary size (between 1/80 and 100 standard deviations of the level's bootstrapping-key noise) gives a non-zero noise word in the bootstrapping key, so that the cloud key is not a system of exact linear equations in the secret key. If all noise words are zero, the two secret keys can be computed from the cloud key alone by ring arithmetic.", "quantifier": "all security levels, all Gaussian draws, all secret keys, all masks, all key-generation schedules, all lawful exact Fourier backends", "why_tests_cant": "A key without noise decrypts and bootstraps perfectly, so every functional test passes; that the truncation to 32-bit words erases the noise of every sample is a statement about all draws, and that the erased noise gives away every key is a statement about all keys and masks.", "anchors": ["utils/utils.go: F64ToTorus, GaussianF64", "params/params.go: ALPHA of TLWELv1 at Uint2-Uint8", "trlwe/trlwe.go: EncryptF64", "trgsw/trgsw.go: EncryptTorus", "cloudkey/cloudkey.go: genBootstrappingKey"]}
{"id": "C72", "title": "Rounding before the blind rotation rarely picks a wrong table entry for a fresh ciphertext", "statement": "For every binary level-0 key, message, function, noise sample and cloud key, over the uniform choice of the mask words of a fresh encryption, the probability that the modulus switch moves a programmable bootstrapping out of the message's window is at most 2 exp(-3T^2/(2wh^2)), with h half a rounding step, w the key weight and T the window left by the sample. At the moduli the levels are meant for this is at most 2^-450 (Uint1), 2^-49 (Uint2), 2^-41 (Uint3, Uint4) and 2^-7 (Uint5; 2^-12 for key weight at most 620); for gates at 80, 110, 128 bits and Uint1 it is at most 2^-450.", "quantifier": "all binary keys up to the stated weight, all messages, functions, samples within the stated bound, all lawful transforms; probability over all 2^(32 n) masks", "why_tests_cant": "Failure probabilities of 2^-41 or 2^-450 never show up in a test run, and the bound is over all keys and messages.", "anchors": ["evaluator/evaluator.go: BlindRotateAssign", "evaluator/programmable_bootstrap.go: BootstrapFuncAssign, BootstrapLUTAssign", "tlwe/programmable_encrypt.go: EncryptLWEMessage, DecryptLWEMessage", "tlwe/tlwe.go: EncryptBool", "gates/gates.go: prepared sums of the two-input gates", "params/params.go: N, NBIT at each level"]}
{"id": "C73", "title": "Programmable bootstrapping is reliable at the modulus the level is named for", "statement": "At every level Uint-k (k = 1..8), with message modulus 2^k as announced in params.go, for every function and message and every secret key, encrypting with a fresh uniform mask, bootstrapping and decrypting returns the function's value except for at most one mask in 100, as long as the noise of the encryption is below a few dozen standard deviations and the noise of the bootstrapping is below half a message step.", "quantifier": "all keys, messages, functions, lawful transforms; the fraction is over all 2^(32 n) masks", "why_tests_cant": "A test draws a few masks under one key; whether the failing fraction is 2^-41 or 1/5 is a count over all masks, and it has to hold for every key.", "anchors": ["params/params.go: SecurityUint1..SecurityUint8 (message space comments), paramsUint1..paramsUint8", "evaluator/evaluator.go: BlindRotateAssign", "evaluator/programmable_bootstrap.go: BootstrapFunc", "tlwe/programmable_encrypt.go"]}
{"id": "C74", "title": "What a re-encryption key gives the delegatee: the delegator's whole secret key", "statement": "For every pair of binary keys, every security level's default base and digit count, both modes (symmetric and asymmetric), all masks, coins and noise draws that add up to less than 1/4: whoever holds the delegatee's secret key computes every bit of the delegator's secret key from the re-encryption key, by decrypting the entries at digit place 0 and digit base/2. Delegating one ciphertext is therefore delegating everything encrypted under the key.", "quantifier": "all key pairs, levels, masks, coins, and noise draws below the bound", "why_tests_cant": "The tests only re-encrypt and decrypt; that the delegatee learns the delegator's key for every key, level and randomness is not visible in any output they check.", "anchors": ["proxyreenc/proxyreenc.go: NewProxyReencryptionKeyAsymmetric, NewProxyReencryptionKeySymmetric, NewPublicKeyLv0", "CHANGELOG.md: 0.2.0 Security, 'No secret key exposure in asymmetric mode'", "params/params.go: BASEBIT, IKS_T"]}
{"id": "C75", "title": "Asymmetric re-encryption rarely changes the message", "statement": "At every security level, for all keys, public-key and fresh noise draws of ordinary size and every ciphertext: over the fair coins of the public-key encryptions that make up an asymmetric (recommended mode) re-encryption key with the level's defaults, re-encrypting an encrypted Boolean and decrypting it under the delegatee's key gives another value with probability at most 1/300.", "quantifier": "all keys, draws and ciphertexts with the stated energy and coin-free phase; probability over all coin tapes", "why_tests_cant": "The tests accept 90 % accuracy over a few dozen runs at one level; a failure rate of 1/300 or 2^-200 over all coin tapes, for all keys, is a counting statement.", "anchors": ["proxyreenc/proxyreenc.go: PublicKeyLv0.EncryptF64, EncryptBool, NewProxyReencryptionKeyAsymmetric, ReencryptTLWELv0", "proxyreenc/proxyreenc_test.go: TestProxyReencryptionAsymmetricMultiple", "CHANGELOG.md: 0.2.0 'Accuracy: 100%'", "params/params.go: ALPHA, BASEBIT, IKS_T per level"]}
{"id": "C76", "title": "Programs of linear operations and table look-ups on encrypted messages", "statement": "For every program of TLWE additions, subtractions, AddMul/SubMul and programmable bootstrappings (with tables prepared once and reused any number of times, or with functions) on encrypted messages modulo a power of two, run with one evaluator: when no intermediate sum leaves the message range and the noise budget is respected, every wire decrypts to the value the plain program computes. Shown from key generation to decryption, with the float64 transform.", "quantifier": "all programs, tables, messages, keys, masks and schedules; all security levels; all message moduli 2^k with 2^(k+1) dividing N", "why_tests_cant": "Tests look up one function at a time on a fresh ciphertext; reuse of tables and wires through a shared evaluator in programs of any length is an induction over the program.", "anchors": ["evaluator/programmable_bootstrap.go: BootstrapFunc, BootstrapLUT", "tlwe/tlwe.go: Add, Sub, AddMul, SubMul", "lut/generator.go: GenLookUpTable", "tlwe/programmable_encrypt.go: EncryptLWEMessage, DecryptLWEMessage"]}
{"id": "C77", "title": "The example programs print what they announce", "statement": "The programmable_bootstrap example (six demos with one evaluator, one of them reusing a table) and the simple_gates example (six gates on every pair of bits, then NOT) decrypt exactly the announced values, and so do their loops on any list of inputs, for all keys and randomness whose noise stays within the margins.", "quantifier": "all inputs of the loops, all keys, masks and noises within the margins, all schedules of key generation, all security levels", "why_tests_cant": "The examples print a check mark for one random key; they are not run by the tests and say nothing about other keys, masks or evaluator states.", "anchors": ["examples/programmable_bootstrap/main.go: demoFunction, demoLUTReuse, demoMultiBit, main", "examples/simple_gates/main.go: main"]}
{"id": "C78", "title": "The noise of the cloud key rarely matters", "statement": "The noise of a bootstrapping splits into an integer combination of the integer parts of the normal numbers drawn by key generation, whose coefficients never depend on later draws, and rounding errors that are bounded whatever the draws are. When the draws are independent with the standard deviations the parameters prescribe, the first part exceeds T with probability at most 2 exp(-T^2/2V) for an explicit V. Consequently, at every level but Uint1, the noise of the cloud key spoils one gate or one table look-up on the level's message size with probability at most 2^-120 (rounding within half the margin), and key switching moves the phase by more than its rounding plus 2^27 with probability at most 2^-38.", "quantifier": "all secret keys, masks, schedules, input ciphertexts fixed before the noise of the cloud key, test vectors and tables, all laws of independent symmetric sub-Gaussian noise (in particular normal numbers cut off to any precision), all security levels, any rounding of float64", "why_tests_cant": "Tests see a handful of keys; a failure probability of 2^-20 or even 1/1000 is invisible to them, and they cannot separate the contribution of the key noise from rounding.", "anchors": ["cloudkey/cloudkey.go: genBootstrappingKey, genKeySwitchingKey", "evaluator/evaluator.go: BlindRotateAssign, BootstrapAssign", "trgsw/trgsw.go: IdentityKeySwitching", "trgsw/keyswitch.go: IdentityKeySwitchingAssign", "params/params.go: KSKAlpha, BSKAlpha", "gates/gates.go"]}
{"id": "C79", "title": "Fresh ciphertexts decrypt to what was encrypted, with overwhelming probability over the noise", "statement": "At every security level, for every key, mask and message, a fresh encryption of a Boolean (level 0 or 1) or of a message of the size the level is made for decrypts to that message except with probability 2^-1000 over the normal number drawn.", "quantifier": "all keys, masks, Booleans and integer messages, all security levels, all sub-Gaussian noise laws with the level's standard deviation", "why_tests_cant": "Tests draw a few samples; they cannot bound the tail of the noise against the decryption margin of eleven parameter sets.", "anchors": ["tlwe/tlwe.go: EncryptBool, DecryptBool", "tlwe/programmable_encrypt.go: EncryptLWEMessage, DecryptLWEMessage", "params/params.go"]}
{"id": "C80", "title": "Evaluators never share a writable buffer", "statement": "NewEvaluator(n) succeeds exactly for the powers of two from 16 on. After any sequence of NewEvaluator and ShallowCopy calls at any levels, all slices that the evaluators write are pairwise different, within one evaluator and between any two of them, different from all slices that existed before and from every (possibly shared) table; no later NewEvaluator or ShallowCopy panics. The five round-robin pools of an evaluator never fail and hand out their four buffers in turn, from the first one again after a reset. BufferPool.MemoryUsage() is at least the bytes of the pool's slices and less than twice that at every level. Its difference to the bytes of the slices is 8N(4+2L) + 8N(2*BlockSize*L+1) + 16(N+1) - 24(n0+1). The four tables of an evaluator are made with exactly as many elements as are stored in them, so no append moves a table.", "quantifier": "all sequences of constructions and copies, all degrees, all lists of pool requests, all levels", "why_tests_cant": "Sharing of memory shows only in the results of later concurrent operations; unboundedly many call sequences.", "anchors": ["evaluator/evaluator.go: NewEvaluator, ShallowCopy", "evaluator/buffers.go", "poly/buffer_manager.go", "poly/buffer_methods.go: GetRotationBuffer, GetTRLWEBuffer", "poly/poly_evaluator.go: newEvaluationBuffer, ShallowCopy", "poly/decomposer.go: NewDecomposer"]}
{"id": "C81", "title": "Level descriptions and polynomial helpers tell the truth", "statement": "SecurityInfo() names the message bits, modulus and degree that the parameters of the current level really have, for every int value of the level. log2(n) panics exactly for n <= 0 and is otherwise the k with 2^k <= n < 2^(k+1). Copy, Clear, ClearTRLWEBuffer and CopyToDecompBuffer panic exactly on too short or missing buffers, and change exactly the entries they should.", "quantifier": "all ints, all polynomials, all buffer lengths and indices", "why_tests_cant": "All ints and all lengths; the tests print the description only.", "anchors": ["params/params.go: SecurityInfo", "poly/poly.go: Copy, Clear, log2", "poly/buffer_methods.go: ClearTRLWEBuffer, CopyToDecompBuffer"]}
{"id": "C82", "title": "Delegation by asymmetric re-encryption works with a proved probability", "statement": "A delegatee makes a public key, the delegator encrypts a message and makes the asymmetric re-encryption key with the default parameters, the proxy re-encrypts, the delegatee decrypts. Over the Gaussian noise of the public key, of the re-encryption key and of the ciphertext, the coins of the re-encryption key and the mask of the ciphertext, a Boolean comes out wrong with probability at most 1/6 at 80 bits, 1/27 at 110 bits, 1/270 at 128 bits, 1/500 at Uint1, 1/25000 at Uint2 and 2^-100 at Uint3 to Uint8; a message of at most as many bits as the level is made for with probability at most 1/4 at Uint2, 2^-25 at Uint3, 1/1200 at Uint4 and 2^-100 at Uint5 to Uint8.", "quantifier": "all security levels, all pairs of binary keys of every weight, all masks of the public key, all messages; probability over noise, coins and mask", "why_tests_cant": "The tests try a few Booleans under a few keys; a probability over all randomness and a bound for all keys cannot be sampled, least of all 2^-100.", "anchors": ["proxyreenc/proxyreenc.go: NewPublicKeyLv0, NewProxyReencryptionKeyAsymmetric, ReencryptTLWELv0", "tlwe/tlwe.go: EncryptBool, EncryptLWEMessage, DecryptBool, DecryptLWEMessage", "examples/proxy_reencryption/main.go"]}
{"id": "C83", "title": "Chains of re-encryptions work with a proved probability", "statement": "A ciphertext with a small error is re-encrypted h times in a row, each hop with its own freshly made key, symmetric or asymmetric, from one user's key to the next. For every number of hops and every mix of modes there is a bound on the probability, over the noise and the coins of all hops, that the last user does not decrypt the message; it holds for every mask and every key although the digits a hop uses depend on the earlier hops. With Booleans and error up to 2^23: at 128 bits one asymmetric hop fails with probability at most 1/64, two with 1/7, three with 3/10, and 40 symmetric hops with 2^-33; at Uint7 and Uint8 100 asymmetric or 400 symmetric hops fail with at most 2^-100; the other levels have rows of their own, and so have messages of the size the level is made for. The program examples/proxy_reencryption, at its level of 128 bits, delivers its five messages to Bob and its test message to Bob and Carol with probability at least 3/4.", "quantifier": "all security levels, all numbers of hops, all mixes of modes, all sequences of binary keys, all ciphertexts within the error bound; probability over noise and coins", "why_tests_cant": "The test suite tries one chain of two hops; errors add up from hop to hop and a probability over the randomness of all hops cannot be sampled at 2^-100.", "anchors": ["proxyreenc/proxyreenc.go: NewPublicKeyLv0, NewProxyReencryptionKeyAsymmetric, NewProxyReencryptionKeySymmetric, ReencryptTLWELv0", "examples/proxy_reencryption/main.go: main", "tlwe/tlwe.go: EncryptBool, DecryptBool"]}
{"id": "C84", "title": "A wrong key or a wrong direction gives a coin flip", "statement": "A fresh level-0 ciphertext read with a secret key different from the one it was made with is a uniform 32-bit word over the choice of the mask. So DecryptBool (at level 0 and at level 1) returns true for exactly half of the masks, whatever bit is encrypted and with whatever noise, and DecryptLWEMessage with a power of two as modulus returns every message equally often. The same holds for every coefficient of a TRLWE ciphertext in float64 arithmetic at every level. All bits of a TRLWE ciphertext together are independent coin flips: with another key, DecryptBool returns every list of N bits with probability exactly 2^-N. A re-encryption key from A to B applied to a fresh ciphertext under a key different from A, for example B itself, gives a result that decrypts under B to either bit with probability one half up to (2^(31-basebit*t) + t*E)/2^31, where E bounds the noise of the entries of the key: the key works in one direction only. At every security level this deviation is at most 1/100 for symmetric keys with E = 2^21, and at most 3/20 for asymmetric keys with E = 2^25.", "quantifier": "all pairs of different binary keys, all plaintexts, all noise, all re-encryption keys, all security levels; exact counts over all masks", "why_tests_cant": "A test can try a few masks; it cannot count over all (2^32)^n masks, nor over all pairs of keys.", "anchors": ["tlwe/tlwe.go: EncryptF64, EncryptBool, DecryptBool", "tlwe/programmable_encrypt.go: EncryptLWEMessage, DecryptLWEMessage", "proxyreenc/proxyreenc.go: package comment (unidirectional), ReencryptTLWELv0", "examples/proxy_reencryption/main.go: lines 147-149", "trlwe/trlwe.go: EncryptBool, DecryptBool"]}
{"id": "C85", "title": "The bits that the gadget decomposition drops concentrate around their mean", "statement": "The decomposition of the external product keeps 18 of 32 bits. The worst case of the bits lost in the 550 to 700 steps of a blind rotation, about 2^13 * w0 * w1 for keys of weights w0 and w1, is far beyond the margin of a gate. At the 80, 110 and 128-bit levels, for fixed keys, noise and input and uniform masks of the bootstrapping key, the rounding errors of a gate bootstrapping in float64 arithmetic exceed 8192*|mean| + T + 8192*w1 + 160*w0*w1 + small rest with probability at most 2 exp(-T^2/(8*8320^2*w0*w1)) + 2n/2^512. The mean depends only on the keys and on the mask of the input.", "quantifier": "all binary keys, all noise, all inputs, all masks of the key-switching key, all schedules that finish, all accurate float64 implementations; probability over all masks of the bootstrapping key", "why_tests_cant": "The probability is over (2^32)^(700*6*1024) masks; a test sees a handful of keys and no tail event.", "anchors": ["trgsw/trgsw.go: BlindRotate, ExternalProductWithFFT", "evaluator/evaluator.go: BlindRotateAssign", "utils and params: decomposition offset, L = 3, BGBIT = 6", "cloudkey/cloudkey.go: genBootstrappingKey"]}
{"id": "C86", "title": "For random keys the rounding errors of a gate stay inside the margin", "statement": "With both secret keys, the masks of the bootstrapping key and the masks of the two fresh input ciphertexts uniform, and any fixed noise, the rounding errors of the bootstrapping of any two-input gate in float64 arithmetic use less than 78, 83 and 88 percent of the margin 2^29 at the 80, 110 and 128-bit levels, except with probability 2^-20, 2^-27 and 2^-30.", "quantifier": "all ten gates, all input bits, all noise, all masks of the key-switching key, all schedules that finish; probability over all keys and masks", "why_tests_cant": "The worst-case bound does not fit the margin, so the claim is one about probabilities over keys; tests cannot see events of probability 2^-20 to 2^-30.", "anchors": ["gates/gates.go", "evaluator/evaluator.go: BlindRotateAssign", "key/key.go: NewSecretKey", "cloudkey/cloudkey.go: NewCloudKey"]}
{"id": "C87", "title": "A gate on fresh encryptions under fresh keys fails with probability at most 2^-20, 2^-27, 2^-30", "statement": "NewSecretKey, NewCloudKey, two calls of EncryptBool, any two-input gate and DecryptBool, as in the example simple_gates, in float64 arithmetic: with uniform coins and masks and independent symmetric subgaussian noise of the standard deviations of the parameter set, the decrypted bit differs from the gate's truth table with probability at most 2^-20 at 80 bits, 2^-27 at 110 bits and 2^-30 at 128 bits and every unknown level. No panic occurs outside that event.", "quantifier": "all ten gates, all input bits, all noise distributions with Gaussian moments, all masks of the key-switching key, all schedules that finish, all accurate float64 implementations", "why_tests_cant": "The failure probability is too small to be seen in tests, and the sample space has more than 2^(10^8) points.", "anchors": ["examples/simple_gates/main.go: lines 28-52", "key/key.go: NewSecretKey", "cloudkey/cloudkey.go: NewCloudKey", "tlwe/tlwe.go: EncryptBool, DecryptBool", "gates/gates.go"]}
{"id": "C88", "title": "A session of gates, and the example simple_gates, is right except with a small probability", "statement": "NewSecretKey, NewCloudKey, any number M of calls of EncryptBool, then any finite sequence of two-input gates, each on two different ones of these ciphertexts, with one evaluator, each result decrypted: in float64 arithmetic some bit is wrong with probability at most (number of gates) times 2^-20, 2^-27, 2^-30 at 80, 110 and 128 bits. In particular the example program simple_gates prints the six truth tables and that of NOT except with probability 25 times these numbers.", "quantifier": "all M, all bits, all sequences of gates, all noise distributions with Gaussian moments, all masks of the key-switching key, all schedules that finish, all initial contents of memory, all accurate float64 implementations", "why_tests_cant": "The failure probability is too small to be seen in tests, and the number of gates and ciphertexts under one key is unbounded.", "anchors": ["examples/simple_gates/main.go: main", "gates/gates.go", "key/key.go: NewSecretKey", "cloudkey/cloudkey.go: NewCloudKey", "tlwe/tlwe.go: EncryptBool, DecryptBool"]}
{"id": "C89", "title": "A session of programmable bootstrappings, and the example programmable_bootstrap, is right except with a small probability", "statement": "NewSecretKey, NewCloudKey, any number M of calls of EncryptLWEMessage with modulus 2, then any finite sequence of calls of BootstrapFunc on these ciphertexts with any functions defined on 0 and 1, with one evaluator, each result decrypted with DecryptLWEMessage: in float64 arithmetic some result differs from f(message mod 2) mod 2 with probability at most (number of calls) times 2^-18, 2^-25, 2^-27 at 80, 110 and 128 bits. In particular the example program programmable_bootstrap always finishes its sixth demo, and its first five demos (identity, NOT, constants, LUT reuse) print what they announce, except with probability 13 times these numbers.", "quantifier": "all M, all messages, all functions and sequences of calls, all noise distributions with Gaussian moments, all masks of the key-switching key, all schedules that finish, all initial contents of memory, all accurate float64 implementations", "why_tests_cant": "The failure probability is over the keys, the masks and the noise of a whole run; tests sample a few runs, and a rate of 2^-18 cannot be told from zero or from a systematic loss of bits in the blind rotation of a particular table.", "anchors": ["evaluator/programmable_bootstrap.go: BootstrapFunc, BootstrapLUT", "lut/generator.go: GenLookUpTable", "tlwe/programmable_encrypt.go: EncryptLWEMessage, DecryptLWEMessage", "key/key.go: NewSecretKey", "cloudkey/cloudkey.go: NewCloudKey", "examples/programmable_bootstrap/main.go: main"]}
{"id": "C90", "title": "Deep programs of gates with a new ciphertext at every gate are right except with a small probability", "statement": "NewSecretKey, NewCloudKey, any number M of calls of EncryptBool, then any finite sequence of two-input gates with one evaluator, each on an earlier result or one of the ciphertexts (first argument) and on a ciphertext on which the first argument does not depend (second argument), all results decrypted at the end: in float64 arithmetic some result differs from the program on bits with probability at most (number of gates + 1) times 2^-11, 2^-17, 2^-19 at 80, 110 and 128 bits, plus M times 2^-60. The depth does not matter. In particular the AND, OR, XOR or any other gate of n encrypted bits, taken from left to right, is right for every n except with probability about n times these numbers.", "quantifier": "all M, all bits, all gates and all programs of this form of any length and depth, all noise distributions with Gaussian moments, all masks of the key-switching key, all schedules that finish, all initial contents of memory, all accurate float64 implementations", "why_tests_cant": "A result carries the noise of the keys and is correlated with them and with all earlier results; whether errors grow with the depth cannot be seen from programs of a few gates, and a rate of 2^-19 per gate not at all.", "anchors": ["gates/gates.go: AND, OR, NAND, NOR, XOR, XNOR, ANDNY, ANDYN, ORNY, ORYN", "evaluator/evaluator.go: Bootstrap", "tlwe/tlwe.go: EncryptBool, DecryptBool", "key/key.go: NewSecretKey", "cloudkey/cloudkey.go: NewCloudKey"]}
{"id": "C91", "title": "Fourier coefficients are values at known roots of unity, and the monomial tables agree with them", "statement": "In exact arithmetic and for every degree the constructor accepts, the Fourier coefficient of a polynomial at place x (stored at positions 8(x/4)+x%4 and four further) is its value at the 2N-th root of unity exp(-i*pi*twMonoIdx[x]/N). The indices are pairwise different, in [0, 2N) and of the form 4r+3. The tables twMono and twMonoIdx that NewEvaluator prepares hold the transforms of all monomials: for every d < 2N the transform of X^d at place x is twMono[(twMonoIdx[x]*d) mod 2N].", "quantifier": "all degrees, all polynomials, all exponents d < 2N, all places", "why_tests_cant": "The tables are read by no function, so no test touches them; and a test of the transform compares with another implementation on sample polynomials, while the order of the evaluation points matters for every degree and every place.", "anchors": ["poly/poly_evaluator.go:89-100", "poly/poly_evaluator.go:146-165", "poly/fourier_transform.go:11-21", "poly/fourier_transform.go:178-247"]}
{"id": "C92", "title": "Keys and ciphertexts have as much randomness as their parameters promise", "statement": "A secret key returned by NewSecretKey can only be guessed by searching a space that is too large to search; a ciphertext made with a public key can only be read with the secret key; an asymmetric re-encryption key does not give the delegator's key to third parties; different encryptions use different randomness. (False of the code: every function takes all its randomness from a math/rand generator seeded with rand.Int63(), whose sequence depends only on the seed modulo 2^31-1. All secret keys of a level are in a computable list of at most 2^31-1 keys; a program that has only the public key reads every ciphertext made with it that anyone can read, and computes the delegator's key from an asymmetric re-encryption key; among 2^31 encryptions two reveal the difference of their plaintexts, and with k encryptions this happens with probability at least 1-exp(-k(k-1)/2^32), which is at least 9/100 in every cloud key and 15/100 at 128 bits. What remains: k guesses succeed with probability at most about k/2^31, and inside one call no value of the generator is used twice: keys, masks, noise and coins come from successive values.)", "quantifier": "all generators that obey the documented law of math/rand seeds, all levels, all keys, all public keys, all seeds, all schedules of key generation", "why_tests_cant": "Tests see a few keys and ciphertexts, which look random; that there are only 2^31 of them, and what a reader who tries all of them learns, is a statement about all seeds.", "anchors": ["key/key.go:17", "tlwe/tlwe.go:37", "tlwe/tlwe.go:157", "trlwe/trlwe.go:29", "proxyreenc/proxyreenc.go:105", "proxyreenc/proxyreenc.go:190-233", "cloudkey/cloudkey.go:88-120", "utils/utils.go:31-49"]}
{"id": "C93", "title": "The float transforms never overflow, and no conversion to int64 leaves its range", "statement": "For every degree up to 2^31 and all polynomials, with any coefficients, no intermediate result of the twiddle tables, the forward and inverse transforms, the pointwise products, sums of up to 2^20 products in Fourier form and the reduction modulo 2^32 exceeds 2^700: the results do not depend on what the arithmetic does beyond, so infinities and NaN cannot arise. The argument of the conversion to int64 after the inverse transform is below 2^63 in absolute value (for sums of up to 2^18 products), so the result does not depend on the platform. Subnormal results on the way do not change the error bound.", "quantifier": "all degrees up to 2^31, all polynomials, all lists of up to 2^20 products, all rounding functions, all choices of fused multiply-adds, all accurate exponentials, all conversions that truncate the numbers below 2^63", "why_tests_cant": "Tests run on some coefficients and a few degrees; an overflow or a loss of precision in the subnormal range could appear for other inputs.", "anchors": ["poly/fourier_transform.go:88-104", "poly/fourier_transform.go:170-260", "poly/poly_evaluator.go:114-143", "poly/fourier_ops.go", "evaluator/evaluator.go", "poly/fourier_transform.go:107-167"]}
{"id": "C94", "title": "Aligned constructors return cache-line aligned memory", "statement": "NewPolyAligned and NewFourierPolyAligned return a slice whose first element is at a multiple of 64 bytes, as their comments say. (False of the code: the offset is computed from the length of the slice, not from its address, and is zero for every accepted degree, so the result is aligned exactly when the allocation happens to be. The extra elements, which would suffice for alignment wherever the allocation is, are never used.)", "quantifier": "all accepted degrees, all addresses that the allocator may return", "why_tests_cant": "Go's allocator usually returns aligned blocks of this size, so a test that looks at addresses passes; the claim is about all addresses.", "anchors": ["poly/aligned.go:7-34", "poly/aligned.go:36-62"]}
{"id": "C95", "title": "Look-ups on sums that leave the message range return the negated entry", "statement": "Programmable bootstrapping with function f and modulus m = 2^k of a ciphertext whose phase is z message steps plus noise, for any integer z (sums and differences of messages that left 0 .. m-1 included), decrypts to g(z) mod m, where g is the extension of f from 0 .. m-1 to all integers with g(z + m) = -g(z). In particular a bootstrapped addition is not addition modulo m: with f the identity and m <= a + b < 2m the result is -(a+b) mod m, which is (a+b) mod m only if m divides 2(a+b).", "quantifier": "all functions, messages, masks, keys, evaluator states; all integers z; all k with 2^(k+1) dividing N; all noise within the margins", "why_tests_cant": "Tests and examples choose moduli so that sums never leave the range; what happens outside is a statement about all integers z and all functions, and DecryptLWEMessage of the unbootstrapped sum does reduce modulo m, so the difference is easy to miss.", "anchors": ["evaluator/programmable_bootstrap.go: BootstrapFunc", "lut/generator.go: GenLookUpTable", "tlwe/programmable_encrypt.go: EncryptLWEMessage, DecryptLWEMessage", "tlwe/tlwe.go: Add"]}
{"id": "C96", "title": "Linear programs on encrypted messages decrypt modulo m, however often they go round the torus", "statement": "For any program of Add, Sub, Neg, AddMul and SubMul (any 32-bit multipliers, any length, any reuse of results) on fresh EncryptLWEMessage ciphertexts with modulus m, every result decrypts (DecryptLWEMessage) to the value of the program on integers, modulo m, whenever the accumulated bound on noise and encoding error plus (2^32 - 2m*floor(2^31/m)) per turn round the torus is below half a message step. For m = 2^k turns and encoding cost nothing. (Contrast C95: after a bootstrapping the reduction is no longer modulo m.)", "quantifier": "all programs, multipliers, messages, masks, noises, keys; all moduli 1 <= m <= 2^31", "why_tests_cant": "Programs of any length with wrap-around of 32-bit words for every modulus, including moduli that do not divide 2^31; tests add two small messages.", "anchors": ["tlwe/tlwe.go: Add, Sub, Neg, AddMul, SubMul", "tlwe/programmable_encrypt.go: EncryptLWEMessage, DecryptLWEMessage"]}
{"id": "C97", "title": "Circuits can be rewritten without changing a bit of any ciphertext", "statement": "Every two-input gate returns bit for bit the ciphertext that AND, OR or XOR returns on possibly negated inputs (NAND is OR of negations, NOR is AND of negations, ANDNY, ANDYN, ORNY, ORYN negate one input, XNOR is XOR with the second input negated), MUX is AND, NOT, AND, OR, and negating twice gives the ciphertext back. So every circuit can be rewritten with AND, OR, XOR, NOT, Copy and Constant alone, and all its wires stay the same ciphertexts, whatever the ciphertexts are, encrypted bits or not, and whatever the two evaluators did before. AND, OR, NAND and NOR do not depend on the order of their inputs, and ANDNY/ANDYN and ORNY/ORYN become each other. XOR does: the ciphertext it bootstraps is the same in both orders only if the inputs are the same ciphertext.", "quantifier": "all circuits of any size, all ciphertexts of the right length, all cloud keys, all evaluator histories, all security levels in float64 arithmetic", "why_tests_cant": "Tests decrypt results of single gates on bits; equality of ciphertexts for all circuits and all ciphertexts, also ones that encrypt nothing, cannot be sampled.", "anchors": ["/repo/gates/gates.go:26-126", "/repo/evaluator/gates_helper.go:10-63", "/repo/tlwe/tlwe.go:77-134"]}
{"id": "C98", "title": "Gates on a ciphertext and its negation return a constant, whatever the ciphertext is", "statement": "AND, OR, NAND and NOR of a ciphertext and its NOT, and ANDNY, ANDYN, ORNY and ORYN of a ciphertext with itself, return one and the same ciphertext for all inputs, encrypted bits or garbage, with any amount of noise, and for all evaluator histories. It encrypts the value the truth table gives (x AND NOT x = false, x OR NOT x = true and so on) with the noise of one bootstrapping. XOR is the exception: there is a ciphertext that decrypts to false and whose XOR with itself encrypts true.", "quantifier": "all ciphertexts of the right length, all cloud keys, all evaluator histories, all security levels in float64 arithmetic", "why_tests_cant": "Tests use fresh encryptions of bits; the claim is about every ciphertext, also ones with too much noise to decrypt, and about equality of the results bit for bit.", "anchors": ["/repo/gates/gates.go:26-126", "/repo/evaluator/gates_helper.go:10-63"]}
{"id": "C99", "title": "One evaluator may serve many clients in turn", "statement": "The gates package has one global evaluator. A server that applies gates for any number of clients, each with its own keys and ciphertexts, in any order, one gate call at a time, computes for every client bit for bit the ciphertexts that the client's own sequence of calls gives on an evaluator of its own: nothing of one client's computation, keys or ciphertexts reaches another client's results. The server's run fails only if some client's run alone would.", "quantifier": "all numbers of clients, all keys, all ciphertexts of the right length, all interleavings of gate calls of any length, all security levels in float64 arithmetic", "why_tests_cant": "Tests use one client and one key; the claim is about all interleavings with different keys on shared buffers.", "anchors": ["/repo/gates/gates.go:18-149", "/repo/evaluator/evaluator.go:50-162"]}
