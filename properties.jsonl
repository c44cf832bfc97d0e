{"id": "C01", "title": "BigInteger construction and read-back round-trip", "statement": "Building a BigInteger of n limbs from a non-negative integer that fits in 32*n bits and reading it back as a Python integer returns the same integer; every limb is a proper 32-bit word; a negative integer is rejected, and an integer that does not fit is reduced modulo 2^(32n).", "quantifier": "every limb count n and every non-negative integer", "why_tests_cant": "The value range grows with 2^(32n); tests sample a few widths and values.", "anchors": ["src/qrisp/alg_primitives/arithmetic/jasp_arithmetic/jasp_bigintiger.py: BigInteger.create_static, create, __call__"]}
{"id": "C02", "title": "BigInteger addition and subtraction wrap modulo 2^(32n)", "statement": "Adding (subtracting) two n-limb BigIntegers yields the n-limb BigInteger whose value is the exact sum (difference) modulo 2^(32n), whatever carries or borrows ripple through the limbs.", "quantifier": "every limb count n and every pair of n-limb values", "why_tests_cant": "Carry chains of any length at any position must be right; tests cannot enumerate 2^(64n) operand pairs.", "anchors": ["src/qrisp/alg_primitives/arithmetic/jasp_arithmetic/jasp_bigintiger.py: BigInteger.__add__, __sub__"]}
{"id": "C03", "title": "BigInteger multiplication is the product modulo 2^(32n)", "statement": "Multiplying two n-limb BigIntegers gives the product modulo 2^(32n); no intermediate 64-bit accumulator overflows.", "quantifier": "every limb count n and every pair of n-limb values", "why_tests_cant": "Accumulator overflow would only show for near-maximal limbs in particular positions.", "anchors": ["src/qrisp/alg_primitives/arithmetic/jasp_arithmetic/jasp_bigintiger.py: BigInteger.__mul__"]}
{"id": "C04", "title": "BigInteger comparisons agree with integer order", "statement": "<, <=, >, >=, ==, != on two n-limb BigIntegers return exactly what the same comparison of the represented integers returns (so they form a total order).", "quantifier": "every limb count n and every pair of n-limb values", "why_tests_cant": "The comparison scans limbs with early-decision flags; a wrong scan direction shows up only for operands whose limbs disagree in opposite directions.", "anchors": ["src/qrisp/alg_primitives/arithmetic/jasp_arithmetic/jasp_bigintiger.py: BigInteger.__lt__, __le__, __gt__, __ge__, __eq__, __ne__"]}
{"id": "C05", "title": "BigInteger bit access and shifts", "statement": "get_bit(i) is bit i of the represented integer, flip_bit(i) changes exactly that bit, left shift by k multiplies by 2^k modulo 2^(32n) and right shift by k is floor division by 2^k.", "quantifier": "every limb count, value, bit position inside the width and shift distance", "why_tests_cant": "Shift distances and limb boundaries combine into unboundedly many cases.", "anchors": ["src/qrisp/alg_primitives/arithmetic/jasp_arithmetic/jasp_bigintiger.py: get_bit, flip_bit, __lshift__, __rshift__"]}
{"id": "C06", "title": "BigInteger bitwise operators act bitwise", "statement": "&, |, ^ and ~ of n-limb BigIntegers act on every one of the 32*n bits independently (and ~x has value 2^(32n)-1-x).", "quantifier": "every limb count and value pair", "why_tests_cant": "Needs every bit position of every width.", "anchors": ["src/qrisp/alg_primitives/arithmetic/jasp_arithmetic/jasp_bigintiger.py: __and__, __or__, __xor__, __invert__"]}
{"id": "C07", "title": "BigInteger division and remainder", "statement": "For b != 0, (a // b, a % b) is the unique pair (q, r) with a = q*b + r and r < b.", "quantifier": "every limb count and every pair of n-limb values with non-zero divisor", "why_tests_cant": "Quotient-digit estimation goes wrong only on about one in 2^31 inputs, which random tests do not hit; the multi-limb routine has to be right for all of them.", "anchors": ["src/qrisp/alg_primitives/arithmetic/jasp_arithmetic/jasp_bigintiger.py: __mod__, __floordiv__, _divmod_single_limb, _remainder_division_knuth, _clz32, _shl_bits, _shr_bits, _ms_length"]}
{"id": "C08", "title": "Bit length of a BigInteger", "statement": "bit_size() is 0 for zero and otherwise the position of the highest set bit plus one.", "quantifier": "every limb count and value", "why_tests_cant": "Leading-zero scanning must work for every highest limb and every highest bit.", "anchors": ["src/qrisp/alg_primitives/arithmetic/jasp_arithmetic/jasp_bigintiger.py: bit_size, _clz32, _ms_length"]}
{"id": "C09", "title": "Integer modular inverse", "statement": "For coprime a and m (m > 1) the modular-inverse helpers return the unique x in [0, m) with a*x congruent 1 modulo m; the Python-int variant in mod_tools raises when a and m are not coprime.", "quantifier": "every integer pair (a, m)", "why_tests_cant": "Unbounded integers; loop length depends on the Euclidean remainder sequence.", "anchors": ["src/qrisp/alg_primitives/arithmetic/jasp_arithmetic/jasp_mod_tools.py: modinv, egcd", "src/qrisp/alg_primitives/arithmetic/modular_arithmetic/mod_tools.py: egcd, modinv"]}
{"id": "C10", "title": "Montgomery encoding round-trips", "statement": "For odd modulus N, encoding a residue with shift m and decoding it with the same shift returns the residue, for positive, zero and negative shifts; encoded products followed by reduction decode to the product modulo N.", "quantifier": "every odd modulus N > 1, every residue below N, every integer shift m", "why_tests_cant": "Three unbounded integers; an off-by-one in the shift is invisible for residues fixed by multiplication with 2.", "anchors": ["src/qrisp/alg_primitives/arithmetic/jasp_arithmetic/jasp_mod_tools.py: montgomery_encoder, new_montgomery_decoder, pow2mod, modinv", "src/qrisp/alg_primitives/arithmetic/modular_arithmetic/mod_tools.py: montgomery_encoder, montgomery_decoder", "src/qrisp/qtypes/quantum_modulus.py: QuantumModulus.encoder, decoder"]}
{"id": "C11", "title": "Classical Montgomery reduction", "statement": "For odd N and 0 <= t < N*2^m the classical reduction returns S with 0 <= S < N and S*2^m congruent t modulo N, together with the u in [0, 2^m) satisfying t = u*N + S*2^m or t = u*N + (S-N)*2^m.", "quantifier": "all N odd, m, t in the stated range", "why_tests_cant": "Unbounded m and t; the final correction step matters only on a thin set.", "anchors": ["src/qrisp/alg_primitives/arithmetic/modular_arithmetic/modular_multiplication.py: cl_montgomery_reduction"]}
{"id": "C12", "title": "Search for the Montgomery shift terminates with the least valid shift", "statement": "find_best_montgomery_shift(b, N) terminates for every N >= 1 and returns the least m such that (N-1)*(b*2^m mod N) < N*2^m.", "quantifier": "every b and N", "why_tests_cant": "A while-True loop: termination and minimality range over all integers.", "anchors": ["src/qrisp/alg_primitives/arithmetic/modular_arithmetic/modular_multiplication.py: find_best_montgomery_shift"]}
{"id": "C13", "title": "Cuccaro adder adds in place", "statement": "Applying the uncontrolled Cuccaro adder to registers a and b maps basis state (a, b) to (a, (a+b+c_in) mod 2^n) where n is the length of b, for every length of a, with the optional carry-out XORed with the carry; the first operand, carry-in and every ancilla are restored.", "quantifier": "every register length n >= 1 and every computational basis state", "why_tests_cant": "2^(2n) basis states for every n.", "anchors": ["src/qrisp/alg_primitives/arithmetic/adders/cuccaro_adder.py: cuccaro_adder, cuccaro_MAJ, cuccaro_UMA"]}
{"id": "C14", "title": "Gidney adder adds in place", "statement": "The Gidney adder without control for a quantum addend, and with or without control for a classical integer addend, maps b to (a + b + c_in) mod 2^n, XORs the carry into c_out when given, acts only when the control is set, leaves a, the carry-in, the control and all carry ancillas as they were, and applies its measurement-based logical ANDs only where they are exact (no phase, no random outcome).", "quantifier": "every register length, every basis state, every classical addend, with/without carry-in, carry-out and control", "why_tests_cant": "The carry chain has n stages and four optional features; each combination must hold for every n.", "anchors": ["src/qrisp/alg_primitives/arithmetic/adders/gidney_adder.py: gidney_adder, _apply_classical_carry_chain, _apply_quantum_carry_chain"]}
{"id": "C15", "title": "Increment circuits add their amount", "statement": "increment_qb_list maps a register of n >= 1 qubits holding x to (x + 1) mod 2^n and restores its ancillas; increment(qf, amount) adds any accepted signed amount modulo 2^n; lin_incr adds its carry-in to the register extended by the carry-out and is the identity when there is no carry-in.", "quantifier": "every n, every basis state, every amount with |amount| < 2^n", "why_tests_cant": "Exponential number of basis states for every n.", "anchors": ["src/qrisp/alg_primitives/arithmetic/adders/incrementation.py: increment, increment_qb_list, increment_arbitrary_constant_qubit_list, lin_incr, cMAJ_gate, cUMA_gate"]}
{"id": "C16", "title": "Modular in-place addition", "statement": "For a < N and b < N, in-place modular addition maps b to (a+b) mod N (and leaves b when the control is off), and returns both helper qubits to zero, for any in-place adder that adds modulo a power of two.", "quantifier": "every modulus N, register length with N <= 2^n, all residues a, b, control on/off, any correct adder", "why_tests_cant": "Unbounded moduli; ancilla cleanup must work on every residue pair.", "anchors": ["src/qrisp/alg_primitives/arithmetic/modular_arithmetic/modular_qft_addition.py: mod_adder", "src/qrisp/alg_primitives/arithmetic/jasp_arithmetic/jasp_mod_adder.py: jasp_mod_adder"]}
{"id": "C17", "title": "Quantum Montgomery reduction and multiplication", "statement": "Montgomery multiplication of a quantum residue y < N by a classical residue X (N odd) writes X*y mod N in the result register and restores the auxiliary register to zero.", "quantifier": "all odd N, all residues, every shift m satisfying the documented bound", "why_tests_cant": "Unbounded moduli and register widths; cleanup of the auxiliary register depends on an identity modulo 2^(m+1).", "anchors": ["src/qrisp/alg_primitives/arithmetic/jasp_arithmetic/jasp_montgomery.py: q_montgomery_reduction, cq_montgomery_multiply"]}
{"id": "C18", "title": "Unsigned comparison circuits", "statement": "The unsigned comparison functions flip the result qubit exactly when a < b (a > b, a <= b, a >= b), for quantum/quantum, quantum/classical and classical/quantum operands, including classical operands outside the register range, and restore operands and ancillas.", "quantifier": "every register length, every basis state, every classical integer, any correct adder", "why_tests_cant": "Boundary values (negative, exactly 2^n, 2^n - 1) and unequal register lengths multiply the cases.", "anchors": ["src/qrisp/alg_primitives/arithmetic/uint_clifford_t_comparisons.py: uint_qq_less_than, uint_qc_less_than, uint_cq_less_than, uint_lt, uint_gt, uint_le, uint_ge"]}
{"id": "C19", "title": "Integer multiplication circuits", "statement": "q_int_mult writes the product of the two unsigned factors into the output register and restores the factors; in-place multiplication with an odd integer maps x to c*x mod 2^n.", "quantifier": "every factor length and every basis state, any correct adder", "why_tests_cant": "The circuit uses a sign-alternating identity; it must hold for all register sizes.", "anchors": ["src/qrisp/alg_primitives/arithmetic/ripple_mult.py: q_int_mult, inpl_q_int_mult", "src/qrisp/alg_primitives/arithmetic/jasp_arithmetic/jasp_multiplyers.py: jasp_controlling_multiplyer, jasp_squaring"]}
{"id": "C20", "title": "In-place adder used by the square root", "statement": "The add / controlled-add / add-sub building blocks of the integer square root map (A, B) to (A+B mod 2^n, B), act only when controlled, and subtract when the control of add-sub is set, restoring B.", "quantifier": "every register length and basis state", "why_tests_cant": "Exponential state space for every n.", "anchors": ["src/qrisp/alg_primitives/arithmetic/isqrt/isqrt_algorithm.py: add, control_add, control_add_sub, peres"]}
{"id": "C21", "title": "A circuit followed by its inverse is the identity", "statement": "For every circuit of unitary operations, appending QuantumCircuit.inverse() of it implements the identity on every state, for every nesting of composite gates and controls.", "quantifier": "all circuits, all parameters, all input states", "why_tests_cant": "Quantifies over all gate sequences, angles and states.", "anchors": ["src/qrisp/circuit/quantum_circuit.py: QuantumCircuit.inverse", "src/qrisp/circuit/operation.py: Operation.inverse, U3Gate.inverse, ControlledOperation.inverse"]}
{"id": "C22", "title": "Transpilation preserves the implemented operator", "statement": "Replacing composite operations by their definitions (QuantumCircuit.transpile, any transpilation level / predicate) yields a circuit implementing the same operator.", "quantifier": "all circuits with arbitrarily nested definitions, all levels and predicates", "why_tests_cant": "Nesting depth and qubit relabelling are unbounded.", "anchors": ["src/qrisp/circuit/transpiler.py: transpile, transpile_inner, extend"]}
{"id": "C23", "title": "Circuits stay well formed", "statement": "Every instruction stored by append refers to as many qubits/clbits as the operation needs, without duplicates and all registered in the circuit, after any sequence of add_qubit/append calls, and a rejected call leaves the circuit unchanged.", "quantifier": "every sequence of API calls, valid or invalid", "why_tests_cant": "History-quantified invariant.", "anchors": ["src/qrisp/circuit/quantum_circuit.py: add_qubit, add_clbit, append, _resolve_qubits, _apply_broadcast"]}
{"id": "C24", "title": "Circuit depth is the longest dependency chain", "statement": "QuantumCircuit.depth returns the length of the longest chain of instructions in which consecutive ones share a qubit or clbit (weighted by the depth indicator).", "quantifier": "all circuits and all non-negative depth indicators", "why_tests_cant": "Longest path over all chains of arbitrary circuits.", "anchors": ["src/qrisp/circuit/quantum_circuit.py: depth", "src/qrisp/misc/utility.py: get_depth_dic"]}
{"id": "C25", "title": "Controlled operations realise control with the requested control state", "statement": "Operation.control(n, ctrl_state) applies the base operation exactly on those basis states whose controls match ctrl_state, and is the identity elsewhere (including global phase).", "quantifier": "every base gate, control count and control state string, every input state", "why_tests_cant": "2^n control states and continuous parameters.", "anchors": ["src/qrisp/circuit/operation.py: Operation.control, ControlledOperation, PTControlledOperation", "src/qrisp/circuit/controlled_operations.py: multi_controlled_u3_circ"]}
{"id": "C26", "title": "Gate rewriting passes preserve the operator: convert_to_cz / convert_to_cx", "statement": "convert_to_cz and convert_to_cx return a circuit with the same effect (measurements included) as the input; in strict mode the result contains no other two-qubit gates than the target gate and barriers; without strict mode they never fail.", "quantifier": "all circuits", "why_tests_cant": "All circuits and states.", "anchors": ["src/qrisp/circuit/pass_management/passes/convert_to_cx.py", "src/qrisp/circuit/pass_management/passes/convert_to_cz.py"]}
{"id": "C27", "title": "Gate rewriting passes preserve the operator: combine_single_qubit_gates", "statement": "Fusing runs of single-qubit gates (runs recognised as identity are removed) preserves the implemented operation, including measurement, barrier and multi-qubit gate boundaries and nested definitions.", "quantifier": "all circuits", "why_tests_cant": "All circuits and states.", "anchors": ["src/qrisp/circuit/pass_management/passes/combine_single_qubit_gates.py"]}
{"id": "C28", "title": "Swap handling passes preserve the operator", "statement": "commute_swaps preserves the implemented operation; resolve_swaps implements it up to a final permutation of the qubits, so that the statistics of the classical bits are unchanged; arrange_swaps preserves the effect on the all-zero state.", "quantifier": "all circuits", "why_tests_cant": "All circuits and states; swaps interact with every later instruction.", "anchors": ["src/qrisp/circuit/pass_management/passes/commute_swaps.py", "src/qrisp/circuit/pass_management/passes/resolve_swaps.py", "src/qrisp/circuit/pass_management/passes/arrange_swaps.py"]}
{"id": "C29", "title": "cancel_zero_controls only removes gates that act trivially", "statement": "Starting from freshly allocated |0> qubits, the circuit returned by cancel_zero_controls prepares the same state.", "quantifier": "all circuits", "why_tests_cant": "All circuits; correctness depends on control states of every gate.", "anchors": ["src/qrisp/circuit/pass_management/passes/cancel_zero_controls.py"]}
{"id": "C30", "title": "PassManager runs its passes in order", "statement": "run applies exactly the registered passes in list order, whatever sequence of add/insert/remove/clear/+= built the list, and composition of managers is composition of passes; verify compares each pass on the circuit the passes before it produced.", "quantifier": "all operation histories and passes", "why_tests_cant": "History quantified.", "anchors": ["src/qrisp/circuit/pass_management/pass_manager.py: PassManager"]}
{"id": "C31", "title": "Product of qubit terms is the operator product", "statement": "Multiplying two QubitTerms (Pauli, ladder and projector factors) returns the term and coefficient whose operator equals the product of the operators.", "quantifier": "all terms on any number of qubits", "why_tests_cant": "8x8 factor table on unboundedly many qubits.", "anchors": ["src/qrisp/operators/qubit/qubit_term.py: PAULI_TABLE, QubitTerm.__mul__"]}
{"id": "C32", "title": "Commutation tests are exact", "statement": "QubitTerm.commute returns True iff the operators commute; commute_qw iff they commute on every qubit; commute_pauli True implies they commute.", "quantifier": "all pairs of terms", "why_tests_cant": "Unbounded supports; early returns depend on iteration order.", "anchors": ["src/qrisp/operators/qubit/qubit_term.py: commute, commute_qw, commute_pauli, commutator"]}
{"id": "C33", "title": "Measurement post-processing evaluates the diagonal operator", "statement": "For a diagonal term, evaluate_observable applied to the serialized term and a measurement outcome returns the eigenvalue of that outcome.", "quantifier": "all diagonal terms and outcomes", "why_tests_cant": "All supports and all 2^n outcomes.", "anchors": ["src/qrisp/operators/qubit/qubit_term.py: serialize", "src/qrisp/operators/qubit/measurement.py: evaluate_observable"]}
{"id": "C34", "title": "Jordan-Wigner images satisfy the canonical anticommutation relations", "statement": "The qubit images of the fermionic ladder operators satisfy {a_i, a_j^dagger} = delta_ij and {a_i, a_j} = 0, and a product of ladder operators is mapped to the product of the images.", "quantifier": "all modes i, j and all products", "why_tests_cant": "Unbounded mode indices; parity strings grow with the index.", "anchors": ["src/qrisp/operators/fermionic/fermionic_term.py: to_qubit_term"]}
{"id": "C35", "title": "Sorting a fermionic term preserves the operator up to the reported sign", "statement": "FermionicTerm.sort returns (term, sign) with sign*term equal to the original operator (sign 0 only if the operator is zero).", "quantifier": "all ladder sequences", "why_tests_cant": "All sequences of any length.", "anchors": ["src/qrisp/operators/fermionic/fermionic_term.py: sort, permutation_signature"]}
{"id": "C36", "title": "Batched dispatch hands every placeholder its own result", "statement": "After dispatch, each result placeholder created by run holds the counts of exactly its own circuit with its own shots, whatever the per-job limit; if a job fails, earlier chunks keep their results and every remaining placeholder raises the error; the queue is empty afterwards.", "quantifier": "all histories of run/dispatch/clear, all limits, all failure points, all backends that return one result per circuit", "why_tests_cant": "Interleavings of calls and failure points are unbounded.", "anchors": ["src/qrisp/interface/batched_backend.py: BatchedBackend.run, dispatch, _submit_chunk, clear", "src/qrisp/interface/measurement_result.py: MeasurementResult"]}
{"id": "C37", "title": "Decoded results preserve the distribution", "statement": "Decoding raw results sums the weights of all outcomes with equal label, so total weight is preserved and the weight of a label is the sum over its preimage; the multi-variable variant assigns each tuple its probability and probabilities sum to one.", "quantifier": "all raw results and decoders", "why_tests_cant": "All distributions and decoders, in particular non-injective ones.", "anchors": ["src/qrisp/interface/measurement_result.py: DecodedMeasurementResult, MultiMeasurementResult, _IntKeyedResult"]}
{"id": "C38", "title": "Backend options are updated atomically", "statement": "update_options either changes exactly the given existing options or raises and changes nothing; unknown keys are never introduced.", "quantifier": "all histories of option updates", "why_tests_cant": "History quantified.", "anchors": ["src/qrisp/interface/backend.py: Backend.update_options, _validate_shots"]}
{"id": "C39", "title": "QuantumFloat encode/decode round-trip", "statement": "Every representable value of a (signed or unsigned) QuantumFloat is encoded to an integer that decodes to it; the encoder rejects exactly the values outside the representable range; decoding is injective.", "quantifier": "every mantissa size, exponent, signedness and value", "why_tests_cant": "All sizes; sign handling must be right at the extreme values.", "anchors": ["src/qrisp/qtypes/quantum_float.py: encoder, decoder, _signed_int_iso, _signed_int_iso_inv, truncate"]}
{"id": "C40", "title": "Jlist behaves like a bounded list", "statement": "append, prepend, pop, extend, clear, indexing and slicing of the traced list behave like the corresponding Python list operations as long as the capacity is not exceeded.", "quantifier": "every operation history within capacity", "why_tests_cant": "History quantified.", "anchors": ["src/qrisp/jasp/interpreter_tools/dynamic_list.py: Jlist"]}
{"id": "C41", "title": "Controlled Cuccaro adder acts only when the control is set", "statement": "With a control qubit the Cuccaro adder performs b += a + c_in and the carry-out update when the control is 1, and is the identity on every qubit (including the carry-out) when the control is 0.", "quantifier": "every register length, basis state, with/without carry-in and carry-out", "why_tests_cant": "State space is exponential in the register length; the control/carry-out combination is easily left out of tests.", "anchors": ["src/qrisp/alg_primitives/arithmetic/adders/cuccaro_adder.py: cuccaro_adder lines 142-196"]}
{"id": "C42", "title": "Controlled Gidney adder with a quantum addend is the controlled addition, without relative phases", "statement": "With a control qubit and a quantum addend the Gidney adder acts on every superposition as the controlled addition: it maps basis states like the controlled addition and introduces no basis-state dependent phase.", "quantifier": "every register length, every basis state, with/without carry-in and carry-out", "why_tests_cant": "Tests sample measurement outcomes in the computational basis, where phases are invisible.", "anchors": ["src/qrisp/alg_primitives/arithmetic/adders/gidney_adder.py: _apply_quantum_carry_chain 266-299, gidney_adder 484-503", "src/qrisp/alg_primitives/mcx_algs/gidney.py: gidney_mcx_impl"]}
{"id": "C43", "title": "In-place modular multiplication returns its work registers clean", "statement": "In-place multiplication of a quantum residue y < N by an invertible classical X (N odd), controlled or not, maps y to X*y mod N (y when the control is off) and returns the temporary and the auxiliary register to zero, with the Montgomery shift the library derives from X.", "quantifier": "all odd N, all X coprime to N, all y < N, all control values, all register layouts", "why_tests_cant": "The second half of the routine runs the inverse multiplication with a shift chosen for X, not for its inverse; whether this is safe depends on the pair (X, N) and on y, and fails only for rare combinations that random tests with small moduli miss.", "anchors": ["src/qrisp/alg_primitives/arithmetic/jasp_arithmetic/jasp_montgomery.py:176-248"]}
{"id": "C44", "title": "Modular multiplication of two quantum residues", "statement": "qq_montgomery_multiply_modulus on reduced residues x, y < N (N odd) writes the reduced residue x*y*2^(-m) mod N into the result register, and restores the auxiliary register to zero.", "quantifier": "all odd N, all x, y < N, all register layouts", "why_tests_cant": "The quotient estimate leaves the reduced range only for products close to (N-1)^2 and only for moduli in certain ranges below a power of two.", "anchors": ["src/qrisp/alg_primitives/arithmetic/jasp_arithmetic/jasp_montgomery.py:251-376"]}
{"id": "C45", "title": "Quantum integer square root", "statement": "q_isqrt applied to an unsigned register holding X returns a register holding floor(sqrt(X)), leaves the remainder X - floor(sqrt(X))^2 in the input register, and leaves all released helper qubits (extension qubits, top of F, z) in state 0 and every other qubit unchanged.", "quantifier": "every register size >= 1 and every basis state", "why_tests_cant": "The digit recurrence (non-restoring) has to work for every register size and all 2^n inputs; tests use a handful of sizes.", "anchors": ["src/qrisp/alg_primitives/arithmetic/isqrt/isqrt_algorithm.py: q_isqrt, initial_subtraction, conditional_addition_or_subtraction, remainder_restoration"]}
{"id": "C46", "title": "Gray code phase synthesis produces the requested phases", "statement": "For any list of 2^n target phases, the circuit built by gray_synth_qc / GraySynthGate multiplies every basis state x of n qubits by exp(i (t_x - t_0)); in the phase tolerant mode it does so up to a phase that does not depend on the last qubit. The fast Walsh-Hadamard transform used computes the transform.", "quantifier": "all n, all real phase lists, all states", "why_tests_cant": "Continuous phases, the set of needed parity operators (hence the circuit shape) depends on the zeros of the spectrum.", "anchors": ["src/qrisp/alg_primitives/logic_synthesis/gray_synthesis.py: fwht, hamming_tsp, gray_synth_qc, GraySynthGate"]}
{"id": "C47", "title": "QuantumCircuit.unitary reproduces every 2x2 unitary", "statement": "The u3 gate (angles and global phase) computed by QuantumCircuit.unitary from a unitary 2x2 matrix has exactly this matrix.", "quantifier": "all unitary 2x2 complex matrices", "why_tests_cant": "The angles come from square root, arccos/atan2 and modulo branches with special cases on zero entries; there is a continuum of matrices.", "anchors": ["src/qrisp/circuit/quantum_circuit.py: unitary"]}
{"id": "C48", "title": "manual_layout places every qubit where the mapping says", "statement": "manual_layout accepts exactly the mappings of the right length with distinct non-negative indices; the resulting circuit has logical qubit i at position mapping[i], all other positions up to the largest index hold new distinct qubits.", "quantifier": "all circuits and mappings", "why_tests_cant": "All mappings of all sizes, including ones with gaps and repeated layouts.", "anchors": ["src/qrisp/circuit/pass_management/passes/manual_layout.py"]}
{"id": "C49", "title": "Qubit operator arithmetic is matrix arithmetic", "statement": "Sum, difference, reversed difference, product and adjoint of QubitOperators have the sum, difference, product and conjugate transpose of the matrices; dropping coefficients below 1e-9 changes a matrix element by at most 1e-9 per combined item.", "quantifier": "all operators with complex coefficients on any number of qubits, all dictionary iteration orders", "why_tests_cant": "Unbounded number of terms; cancellation and the threshold depend on the order in which terms are combined.", "anchors": ["src/qrisp/operators/qubit/qubit_operator.py: __add__, __sub__, __rsub__, __mul__, adjoint, apply_threshold"]}
{"id": "C50", "title": "Eliminating ladder conjugates keeps a Hermitian operator", "statement": "For a Hermitian operator, eliminate_ladder_conjugates returns an operator which, with every ladder term T read as (T + T^dagger)/2, represents the same matrix.", "quantifier": "all Hermitian operators", "why_tests_cant": "All coefficient combinations and term orders.", "anchors": ["src/qrisp/operators/qubit/qubit_operator.py: eliminate_ladder_conjugates"]}
{"id": "C51", "title": "Product and adjoint of fermionic terms", "statement": "Multiplying fermionic terms multiplies the operators in the written order, and dagger gives the adjoint operator.", "quantifier": "all ladder sequences on any number of modes", "why_tests_cant": "Ladder lists are stored in reverse order of the operator product; all lengths.", "anchors": ["src/qrisp/operators/fermionic/fermionic_term.py: __mul__, dagger"]}
{"id": "C52", "title": "QuantumFloat.truncate rounds to the closest representable value", "statement": "truncate(x) is a representable value of the QuantumFloat and no representable value is closer to x, including values beyond both ends of the range.", "quantifier": "mantissa sizes up to 53 bits, every exponent, signedness and float64 value x with x/2^exponent in the int64 range", "why_tests_cant": "All sizes, exponents and values; clamping and sign conversion interact at the ends.", "anchors": ["src/qrisp/qtypes/quantum_float.py: truncate, decoder, _signed_int_iso"]}
{"id": "C53", "title": "shors_alg returns a nontrivial factor", "statement": "A value returned by shors_alg divides N and is neither 1 nor N (except N = 2), whatever the quantum order finding returned; and if the order finder answers correctly for some proposal with even order r and a^(r/2) not -1, a value is returned.", "quantifier": "all N > 0, all proposal orders and all answers of the order finding routine", "why_tests_cant": "The quantum part is random; the tests try a few N and one run each.", "anchors": ["src/qrisp/algorithms/shor/shors_algorithm.py: shors_alg, find_optimal_a"]}
{"id": "C54", "title": "Order finding post-processing", "statement": "extract_order returns an exponent r with a^r = 1 mod N, the continued fraction candidates contain the denominator of every fraction closer than 1/(2r^2) to a measurement, and find_order returns an order exponent of its argument a.", "quantifier": "all a, N, all lists of measured phases", "why_tests_cant": "Measurement outcomes are random and range over all dyadic fractions.", "anchors": ["src/qrisp/algorithms/shor/shors_algorithm.py: find_order, extract_order, get_r_values"]}
{"id": "C55", "title": "RSA integer round trip", "statement": "Decrypting with any nontrivial factor returned by Shor's algorithm an integer encrypted with the public key (e, N) gives back the integer.", "quantifier": "all distinct primes p, q, all e coprime to (p-1)(q-1), all messages below N, also those divisible by p or q", "why_tests_cant": "Infinitely many keys and messages.", "anchors": ["src/qrisp/algorithms/shor/crypto_tools.py: rsa_encrypt, rsa_decrypt"]}
{"id": "C56", "title": "RSA string round trip", "statement": "rsa_decrypt_string of rsa_encrypt_string gives back the message.", "quantifier": "all keys with distinct primes, all messages of 7 bit characters of any length", "why_tests_cant": "Behaviour depends on message length modulo block sizes derived from N; padding errors show up only for some lengths.", "anchors": ["src/qrisp/algorithms/shor/crypto_tools.py: rsa_encrypt_string, rsa_decrypt_string"]}
{"id": "C57", "title": "Topological orders of the permeability graph keep the effect of the circuit", "statement": "Every order of the instructions that respects the edges of the permeability graph of a circuit gives a circuit with the same effect on every state, with every gate exactly once; such an order exists; the graph is built for every circuit whose classically conditioned operations act on one qubit.", "quantifier": "all circuits (any number of qubits, clbits, allocations), all topological orders, all gate matrices that commute with the Pauli matrices their permeability claims, all states", "why_tests_cant": "The number of topological orders grows factorially and a wrongly missing edge only matters for one relative order of two gates on particular states.", "anchors": ["src/qrisp/permeability/permeability_dag.py: dag_from_qc, PermeabilityGraph, TerminatorNode", "src/qrisp/permeability/type_checker.py: is_permeable"]}
{"id": "C58", "title": "parallelize_qc and optimize_allocations keep the effect of the circuit", "statement": "Reordering a circuit for depth or for late allocation and early deallocation does not change its effect, whatever the depth estimates and hash values are; after optimize_allocations each allocation stands directly before the first instruction that uses the qubit.", "quantifier": "all circuits, all depth indicators, all hash orders, all meanings of the gates that respect the permeability types", "why_tests_cant": "The choices depend on costs and hash values; tests see one run for some circuits.", "anchors": ["src/qrisp/permeability/qc_transformations/parallelization.py: parallelize_qc", "src/qrisp/permeability/qc_transformations/memory_management.py: optimize_allocations, topological_sort, toposort_helper_dense_inner, compute_all_ancestors_dense"]}
{"id": "C59", "title": "Light cone reduction keeps the measurement statistics", "statement": "lightcone_reduction only removes instructions, never removes a deallocation, and the probability of every outcome of the intended measurements is the same as for the unreduced circuit, for every initial state.", "quantifier": "all unitary circuits, all non-empty sets of measured qubits, all outcomes, all states", "why_tests_cant": "Removing one gate too many changes the statistics only for states on which the gate acts; circuits and states cannot be enumerated.", "anchors": ["src/qrisp/permeability/qc_transformations/light_cone_reduction.py: lightcone_reduction"]}
{"id": "C60", "title": "Qubit assignment of the compiler keeps the state", "statement": "The circuit in which the compiler replaces logical by physical qubits, reusing deallocated ones, ends in the state of the logical circuit, read through the translation dictionary, with all other physical qubits in state 0; the number of qubits computed beforehand always suffices.", "quantifier": "all circuits whose deallocated qubits are in state 0, all gate matrices, all orders in which free qubits are chosen, all amplitudes", "why_tests_cant": "Reuse patterns depend on depth estimates and on the interleaving of allocations; a wrong reuse only shows up when a recycled qubit matters.", "anchors": ["src/qrisp/core/compilation.py: qompiler (lines 229-395)"]}
{"id": "C61", "title": "jasp balauca mcx and mcp with any number of controls", "statement": "jasp_balauca_mcx flips the target exactly when every control has its control state, introduces no relative phase and returns all ancillas to 0; jasp_balauca_mcp multiplies the phase exactly when every control has its control state.", "quantifier": "all numbers of controls >= 1, all control states, all basis states, all phases of the phase tolerant gates", "why_tests_cant": "Tests sample a few control counts and measure in the computational basis, where relative phases are invisible.", "anchors": ["src/qrisp/alg_primitives/mcx_algs/balauca.py: jasp_balauca_mcx, jasp_balauca_mcp, jasp_balauca_helper"]}
{"id": "C62", "title": "khattar_mcp applies the phase exactly when the controls match", "statement": "khattar_mcp multiplies the phase exactly when every control has its control state, changes no qubit and returns its ancilla and target to 0.", "quantifier": "all numbers of controls >= 1, all control states, all basis states, all phases of the phase tolerant gates", "why_tests_cant": "The ladder has index arithmetic depending on size and parity; phases are invisible in computational basis samples.", "anchors": ["src/qrisp/alg_primitives/mcx_algs/khattar.py: khattar_mcp, cca_mcx, cca_4ctrls"]}
{"id": "C63", "title": "khattar_mcx is an exact multi-controlled X", "statement": "khattar_mcx flips the target exactly when every control has its control state, returns its ancilla to 0 and introduces no relative phase.", "quantifier": "all numbers of controls >= 1, all control states, all basis states, all phases of the phase tolerant gates", "why_tests_cant": "Tests sample a few control counts and measure in the computational basis, where relative phases are invisible.", "anchors": ["src/qrisp/alg_primitives/mcx_algs/khattar.py: khattar_mcx, cca_mcx, cca_4ctrls"]}
{"id": "C64", "title": "hybrid_mcx is exact for any number of clean ancillas", "statement": "hybrid_mcx flips the target exactly when every control has its control state, introduces no relative phase and returns the ancillas to 0, whatever number of clean ancillas is allowed and with or without mid-circuit measurement.", "quantifier": "all lists of controls with control states, all numbers of clean ancillas, both settings of use_mcm, all basis states", "why_tests_cant": "The recursion structure depends on control count and ancilla budget; relative phases are invisible in samples.", "anchors": ["src/qrisp/alg_primitives/mcx_algs/balauca.py: hybrid_mcx, balauca_layer, structure_decider, balauca_mcx"]}
{"id": "C65", "title": "balauca_mcp applies the phase exactly when the controls match", "statement": "balauca_mcp multiplies the phase exactly when every control has its control state and changes no qubit.", "quantifier": "all lists of at least one control with control states, all phases, all basis states", "why_tests_cant": "Tests use a few control counts; phases need interference to be seen.", "anchors": ["src/qrisp/alg_primitives/mcx_algs/balauca.py: balauca_mcp, hybrid_mcx"]}
{"id": "C66", "title": "yong_mcx is an exact multi-controlled X with a dirty ancilla", "statement": "The recursive yong_mcx circuit is, on every amplitude function, the multi-controlled X gate with the control state, whatever state the ancilla and the borrowed qubits are in.", "quantifier": "all numbers of controls >= 2, all control states, all quantum states", "why_tests_cant": "Dirty ancillas can be in any state, also entangled; tests start them in 0 and sample basis states.", "anchors": ["src/qrisp/alg_primitives/mcx_algs/yong.py: yong_mcx"]}
{"id": "C67", "title": "Toffoli circuits of the circuit library", "statement": "toffoli_qc and amy_toffoli_qc are the Toffoli gate; margolus_qc and maslov_qc are the two and three controlled X up to the stated relative phase; gidney_qc computes and gidney_qc_inv uncomputes the logical AND for both measurement outcomes; gidney_CCCX is the three-controlled X up to a global phase for both outcomes.", "quantifier": "all layouts on distinct qubits inside any register, all quantum states with the ancillas in 0, both measurement outcomes", "why_tests_cant": "Tests sample basis states; phases and both measurement branches on entangled states are not covered.", "anchors": ["src/qrisp/alg_primitives/mcx_algs/circuit_library.py: toffoli_qc, margolus_qc, maslov_qc, gidney_qc, gidney_qc_inv, amy_toffoli_qc", "src/qrisp/alg_primitives/mcx_algs/khattar.py: gidney_CCCX"]}
{"id": "C68", "title": "jones_toffoli_qc is a Toffoli gate", "statement": "The compiled Jones Toffoli circuit acts as the Toffoli gate for both measurement outcomes when its ancillas are in 0.", "quantifier": "all quantum states with the ancillas in 0, both measurement outcomes", "why_tests_cant": "The test applies the gate twice, so a wrong phase cancels.", "anchors": ["src/qrisp/alg_primitives/mcx_algs/circuit_library.py: selinger_toffoli_qc, jones_toffoli_qc"]}
{"id": "C69", "title": "QFT is the discrete Fourier transform in both modes", "statement": "QFT maps the amplitude of the register value X to 2^{-n/2} sum_X e^{2 pi i m X Y/2^n}, with the bit order of Y given by exec_swap and qiskit_endian, for every odd inplace_mult m; even m raise; inv=True gives the two-sided inverse. In tracing mode QFT is the transform with multiplier 1 in the default bit order, whatever inplace_mult and qiskit_endian are.", "quantifier": "all register sizes, all quantum states, all odd multipliers, all flag combinations", "why_tests_cant": "Tests check a few sizes on basis states; the accumulated phase corrections depend on size and multiplier.", "anchors": ["src/qrisp/alg_primitives/qft.py: QFT_inner, QFT, jasp_qft"]}
{"id": "C70", "title": "fourier_adder adds modulo 2^n without leaving phases", "statement": "fourier_adder(a, b) maps b to a+b modulo 2^n on every superposition, for classical a of any sign and quantum a of at most the size of b; larger a raises.", "quantifier": "all register sizes, all integers a, all quantum states", "why_tests_cant": "Relative phases are invisible in basis state measurements and sizes are unbounded.", "anchors": ["src/qrisp/alg_primitives/arithmetic/adders/fourier_adder.py: fourier_adder, QuasiRZZ"]}
{"id": "C71", "title": "jasp_fourier_adder adds modulo 2^n without leaving phases", "statement": "jasp_fourier_adder(a, b) maps b to a+b modulo 2^n on every superposition, for classical a and for registers of any two sizes.", "quantifier": "all register sizes, all integers a, all quantum states", "why_tests_cant": "Relative phases are invisible in basis state measurements and sizes are unbounded.", "anchors": ["src/qrisp/alg_primitives/arithmetic/jasp_arithmetic/jasp_fourier_adder.py: jasp_fourier_adder"]}
{"id": "C72", "title": "QPE estimates the eigenphase", "statement": "On an eigenstate of U with phase theta, QPE gives the register value Y the amplitude 2^{-n} sum_X e^{2 pi i X(theta - Y/2^n)} and leaves the eigenstate unchanged; if theta = k/2^n the result is k/2^n with certainty; otherwise the best approximation has probability at least 4/pi^2. The same with iter_spec and in tracing mode.", "quantifier": "all unitaries acting outside the register, all eigenphases, all precisions", "why_tests_cant": "The bound and the exact amplitudes quantify over real phases and all precisions.", "anchors": ["src/qrisp/alg_primitives/qpe.py: QPE"]}
{"id": "C73", "title": "IQPE returns the eigenphase", "statement": "On an eigenstate whose phase is theta = k/2^precision turns (0 <= theta < 1), IQPE returns theta.", "quantifier": "all unitaries, all precisions, all k, all measurement outcomes of non-zero probability", "why_tests_cant": "The only test uses rx gates, whose eigenphase is half the angle, which hides a factor of two.", "anchors": ["src/qrisp/alg_primitives/iterative_qpe.py: IQPE"]}
{"id": "C74", "title": "reflection is (1 - e^{i phi})|psi><psi| - I", "statement": "reflection(qargs, state_function, phase) applies exactly (1 - e^{i phi})|psi><psi| - I including the global phase, for the prepared state |psi>; with reflection_indices it applies U((1 - e^{i phi})|0><0| - I)U^dagger on the chosen qubits.", "quantifier": "all state preparation circuits, all angles, all register sizes, all states", "why_tests_cant": "Tests compare measurement statistics of a few states and cannot see the phases.", "anchors": ["src/qrisp/alg_primitives/reflection.py: reflection"]}
{"id": "C75", "title": "amplitude_amplification rotates by 2t per iteration", "statement": "If the good states of the prepared state have probability sin^2 t, then after k iterations every good amplitude is multiplied by sin((2k+1)t)/sin t and every other amplitude by cos((2k+1)t)/cos t.", "quantifier": "all state preparations, all phase oracles, all iteration counts", "why_tests_cant": "Unbounded in iterations and circuits; tests check sampled probabilities only.", "anchors": ["src/qrisp/alg_primitives/amplitude_amplification.py: amplitude_amplification"]}
{"id": "C76", "title": "polynomial_encoder adds the value of the polynomial", "statement": "polynomial_encoder(inputs, output, poly) adds the value of the polynomial at the (signed, fixed-point) values of the inputs to the output (times the odd factor), modulo the range of the output, for every basis state and without relative phases; inputs and ancilla are restored. It raises for signed inputs with unsigned output and for even factors.", "quantifier": "all polynomials whose monomials are multiples of the output resolution, all register sizes, exponents, sign flags, all states", "why_tests_cant": "Polynomials, sizes, exponents and input values are unbounded; phases are invisible to measurements.", "anchors": ["src/qrisp/alg_primitives/arithmetic/SBP_arithmetic.py: polynomial_encoder, sb_polynomial_encoder, multi_controlled_U_g", "src/qrisp/qtypes/quantum_float.py: sb_poly"]}
{"id": "C77", "title": "In-place addition and subtraction of quantum floats", "statement": "x += y and x -= y add/subtract the value of y to x modulo the range of x, for numbers and for quantum floats; a number that is not a multiple of the resolution raises. For quantum floats of finer resolution the result is expected to be rounded.", "quantifier": "all sizes, exponents, sign flags, all basis states", "why_tests_cant": "Tests use a few sizes, never an operand with much finer resolution.", "anchors": ["src/qrisp/qtypes/quantum_float.py: __iadd__, __isub__"]}
{"id": "C78", "title": "Out-of-place +, - and * of quantum floats are exact", "statement": "The output chosen for x + y, x - y and x * y (polynomial method) has enough qubits and resolution that the result is exact for all values, including products of a signed float with itself in an unsigned output.", "quantifier": "all sizes, exponents, sign flags, all basis states", "why_tests_cant": "The size formula has to be right for every combination of mantissa sizes, exponents and signs; extreme values occur in one basis state out of exponentially many.", "anchors": ["src/qrisp/qtypes/quantum_float.py: create_output_qf, __add__, __sub__, __mul__", "src/qrisp/alg_primitives/arithmetic/SBP_arithmetic.py: sbp_add, sbp_sub, sbp_mult"]}
{"id": "C79", "title": "cyclic_shift shifts by k for every length and every k", "statement": "cyclic_shift(iterable, k) moves the element at place t to place (t + k) mod N and touches nothing else; the tracing version agrees with it and -k undoes k.", "quantifier": "all lengths N >= 1, all integers k, all contents", "why_tests_cant": "The circuit depends on the binary length and the cycle structure of the shift; tests try few lengths.", "anchors": ["src/qrisp/alg_primitives/iterable_processing.py: cyclic_shift, _cyclic_shift_jasp, singular_shift, compute_ladder_iterations"]}
{"id": "C80", "title": "permute_iterable applies the given permutation", "statement": "After permute_iterable(iterable, perm), place i holds the element that was at place perm[i]; nothing else changes.", "quantifier": "all permutations of all lengths, all contents", "why_tests_cant": "N! permutations.", "anchors": ["src/qrisp/alg_primitives/iterable_processing.py: permute_iterable, to_cycles"]}
{"id": "C81", "title": "demux moves the input to the indexed output", "statement": "After demux(input, index, output) the output at the value of the index holds the input; nothing outside input and outputs changes; mismatching sizes raise unless permitted, and permitted mismatches still place the input at the index.", "quantifier": "all output lengths, all index register sizes, all index values, all contents", "why_tests_cant": "Recursion over sizes and all index values; mismatching sizes are hardly tested.", "anchors": ["src/qrisp/alg_primitives/iterable_processing.py: demux"]}
{"id": "C82", "title": "Quantum indexing of arrays reads the indexed entry", "statement": "array[i, j, ...] with quantum indices brings the entry at that multi-index to the first place, and the inverse restores the array; signed and non-integer indices raise; indices whose sizes do not match the dimensions are refused or still address the right entry.", "quantifier": "all shapes, index sizes, index values, contents", "why_tests_cant": "All shapes and index values; tests use square arrays.", "anchors": ["src/qrisp/core/quantum_array.py: manipulate_array", "src/qrisp/alg_primitives/iterable_processing.py: demux"]}
{"id": "C83", "title": "In-place multiplication of a quantum float by a number", "statement": "After x *= c the float holds exactly c times the number it held, for every factor with at most 31 binary digits after the point; other factors and negative factors for unsigned floats raise; without overflow treatment an odd factor multiplies modulo the range.", "quantifier": "all sizes, exponents, signs, contents, factors", "why_tests_cant": "Infinitely many factors and sizes; the tests use small nonnegative contents where the top qubit is 0.", "anchors": ["src/qrisp/alg_primitives/arithmetic/SBP_arithmetic.py: inpl_mult", "src/qrisp/qtypes/quantum_float.py: __imul__"]}
{"id": "C84", "title": "Order comparisons of quantum floats", "statement": "<, >, <=, >= between two quantum floats, or a quantum float and a number in either order, compute the truth value of the comparison of the numbers into a fresh quantum bool and change nothing else; helper qubits end in 0.", "quantifier": "all sizes, exponents, signs, contents, rational numbers", "why_tests_cant": "All pairs of formats and all contents in superposition; numbers between grid points.", "anchors": ["src/qrisp/alg_primitives/arithmetic/comparisons.py: less_than_gate, less_than, lt, gt, geq, leq"]}
{"id": "C85", "title": "Equality of quantum floats", "statement": "a == b computes the equality of the numbers held by two quantum floats (or of a quantum float and a number) into a fresh quantum bool and changes nothing else.", "quantifier": "all sizes, exponents, signs, contents, numbers", "why_tests_cant": "All pairs of formats; tests compare floats of one format.", "anchors": ["src/qrisp/alg_primitives/arithmetic/comparisons.py: equal"]}
{"id": "C86", "title": "The Thapliyal adder adds", "statement": "thapliyal_procedure(l1, l2, out) leaves l1 as it was, makes l2 the sum modulo 2^n and flips out by the carry, without phases, for lists of equal nonzero length; other lists raise.", "quantifier": "all lengths, all contents", "why_tests_cant": "All register lengths and contents; the TR gates contribute phases that measurements do not show.", "anchors": ["src/qrisp/alg_primitives/arithmetic/adders/thapliyal_adder.py: TR_gate, thapliyal_procedure"]}
{"id": "C87", "title": "In-place ripple-carry addition of quantum floats", "statement": "inpl_add(x, y) adds the number in y to x, modulo the range of x, rounded down to the resolution of x if rounding is ignored; y and all ancillas are unchanged.", "quantifier": "all sizes, exponents, signs, contents", "why_tests_cant": "All pairs of formats; tests use equal formats of at least three qubits.", "anchors": ["src/qrisp/alg_primitives/arithmetic/adders/ripple_carry_adder.py: inpl_add"]}
{"id": "C88", "title": "Division of quantum floats", "statement": "q_divmod(N, D, prec) returns fresh floats with N = q D + r and |q - N/D| < 2^(-prec), 0 <= r < |D| 2^(-prec), for every nonzero divisor, and leaves the operands as they were; q_int_div is the integer case and raises for non-integer formats.", "quantifier": "all sizes, exponents, signs, precisions, contents with nonzero divisor", "why_tests_cant": "All formats and contents; the loop length depends on the formats.", "anchors": ["src/qrisp/alg_primitives/arithmetic/ripple_division.py: q_int_div, q_divmod", "src/qrisp/qtypes/quantum_float.py: copy_qf"]}
{"id": "C89", "title": "Quantum switch applies the branch of the index", "statement": "q_switch(index, branches, *operands) applies branch i where the index register holds i, nothing where it holds a value without branch (or the outer control is off), and returns index and ancillas as they were, for the methods tree, sequential and parallel and for functions and lists of branches.", "quantifier": "all register sizes, numbers of branches, branches, index contents", "why_tests_cant": "The tree walk toggles ancillas depending on the number of common leading bits of consecutive indices; tests use few sizes and full trees.", "anchors": ["src/qrisp/alg_primitives/switch_case/quantum_switch.py: _q_switch_q", "src/qrisp/alg_primitives/switch_case.py: _q_switch_q"]}
{"id": "C90", "title": "Linear combination of unitaries", "statement": "After inner_LCU, the part of the state with the case register at 0 is the sum of |prep_i|^2 U_i applied to the operand.", "quantifier": "all numbers of unitaries at least 2, all preparations, all linear branches, all operand states", "why_tests_cant": "Statement about amplitudes for arbitrary unitaries and preparations.", "anchors": ["src/qrisp/alg_primitives/lcu.py: inner_LCU"]}
{"id": "C91", "title": "Interaction gates are their matrices", "statement": "rzz, rxx and xxyy, as built from elementary gates, act as exp(-i phi/2 ZZ), exp(-i phi/2 XX) and the partial exchange of unequal bits with phase beta, including global phase.", "quantifier": "all angles, all states, all pairs of distinct qubits", "why_tests_cant": "Continuous angles; phases that cancel in measurements.", "anchors": ["src/qrisp/circuit/standard_operations.py: RXXGate, RZZGate, XXYYGate"]}
{"id": "C92", "title": "Unbalanced W state", "statement": "unbalanced_w_state(qv, a) on a fresh variable gives the basis state with only bit i set the amplitude a_i/|a| and all other basis states amplitude 0; it raises exactly for a length mismatch or a norm below 1e-15.", "quantifier": "all sizes, all complex amplitudes whose tails vanish or exceed the threshold", "why_tests_cant": "All sizes and complex amplitudes, including zeros in any place.", "anchors": ["src/qrisp/alg_primitives/unbalanced_w_state.py: unbalanced_w_state"]}
{"id": "C93", "title": "Dicke states", "statement": "dicke_state(qv, k) on the state with the last k of n qubits set gives every basis state with exactly k set bits the amplitude 1/sqrt(n choose k) and no other state occurs.", "quantifier": "all n, all k from 1 to n, all states of the other qubits", "why_tests_cant": "All sizes and weights; signs of the amplitudes.", "anchors": ["src/qrisp/alg_primitives/dicke_state_prep.py: dicke_state, split_cycle_shift"]}
{"id": "C94", "title": "State preparation with q_switch", "statement": "prepare(qv, array, method=\"qswitch\") on fresh qubits gives every bit pattern the amplitude array[number written by the bits]/norm, in both bit orders; a wrong length or a norm of at most 1e-8 raises. bit_reverse reverses the lowest width bits and swap_endianness moves entries to the reversed bit pattern.", "quantifier": "all sizes 1..64, all complex arrays whose entries are zero or larger than 2^-26 times the norm, all states of the other qubits", "why_tests_cant": "Angles, phases and zero branches of a binary tree for every complex array and every size.", "anchors": ["src/qrisp/alg_primitives/state_preparation/qswitch_state_preparation.py: prepare_qswitch, _preprocess, _normalize_with_phase, _compute_thetas, _compute_u3_params", "src/qrisp/alg_primitives/state_preparation/prepare_func.py: prepare", "src/qrisp/misc/utility.py: bit_reverse, swap_endianness"]}
{"id": "C95", "title": "Simulation of a diagonal term", "statement": "In static mode QubitTerm.simulate of a term with factors Z, P0, P1 and coefficient x multiplies the amplitude of every basis state by exp(-i\u00b7x\u00b7\u03bb), \u03bb being the diagonal entry of the matrix of the term; with ctrl only where the control qubit is set. Helper qubits return to 0. In tracing mode this is false for P0 factors next to a Z.", "quantifier": "all terms with distinct qubits and diagonal factors, all real coefficients, with and without control, all states with clean helper qubits, any relative phase of the temporary logical AND", "why_tests_cant": "The number of projectors, Z factors and the control select different circuits; phases must be right for all superpositions.", "anchors": ["src/qrisp/operators/qubit/qubit_term.py: simulate", "src/qrisp/core/gate_application_functions.py: mcx"]}
{"id": "C98", "title": "Grouping of operators", "statement": "Greedy graph colouring (RLF, DSATUR and the choice between them) gives adjacent vertices different colours and skips no colour. group_up partitions the terms into non-empty groups whose members are pairwise related in both orders; the groups add up to the operator. The sorted insertions of commuting_groups/commuting_qw_groups partition the terms into groups of commuting terms.", "quantifier": "all graphs, all relations, all lists of terms and coefficients", "why_tests_cant": "All graphs and relations; greedy heuristics have data dependent loops.", "anchors": ["src/qrisp/operators/hamiltonian_tools.py: group_up_iterable, find_coloring, rlf_coloring, dsatur_coloring", "src/qrisp/operators/qubit/qubit_operator.py: group_up, commuting_groups, commuting_qw_groups"]}
{"id": "C96", "title": "Change of basis", "statement": "For an operator whose terms commute qubit-wise and have ladder operators on the same qubits, change_of_basis(method=\"commuting_qw\") does not raise and returns an operator with the factors Z, P0, P1 only; applying the operator (a ladder term standing for half the sum with its conjugate) and then the gates equals applying the gates and then the diagonal operator, and the inverse gates undo the gates. Overlapping different ladder sets raise.", "quantifier": "all numbers of qubits, all such operators with complex coefficients, all states", "why_tests_cant": "All term shapes, all ladder sets and all superpositions.", "anchors": ["src/qrisp/operators/qubit/qubit_operator.py: change_of_basis", "src/qrisp/core/gate_application_functions.py: sx_dg"]}
{"id": "C97", "title": "Trotterization", "statement": "trotterization(method=\"commuting_qw\") of a Hermitian operator with real coefficients gives a circuit that is the iter*steps-th power of the product of exp(-i*theta*H_g) over groups H_g that add up to H, theta = t/steps with the sign of forward_evolution; with order=2 the symmetric product with half angles. If the groups commute the circuit is exactly exp(-i*t*iter*H); for steps to infinity it converges to exp(-i*t*H).", "quantifier": "all numbers of qubits, all operators with distinct terms, all times, numbers of steps and iterations, all states with clean helper qubits", "why_tests_cant": "Limit statement and exact matrices for all operators; tests compare single evolutions within tolerances.", "anchors": ["src/qrisp/operators/qubit/qubit_operator.py: trotterization, group_up, eliminate_ladder_conjugates", "src/qrisp/operators/qubit/qubit_term.py: simulate, ladders_agree, commute_qw, intersect"]}
{"id": "C99", "title": "Grover's algorithm", "statement": "grovers_alg with exact=True ends in a state in which the winner states have probability 1, for every number W >= 1 of winner states and every register; with k iterations the probability is sin^2((2k+1) arcsin sqrt(W/N)); the default number of iterations leaves at most probability 6W/N to the other states (for two qubits and one winner state it is 1/4 only). tag_state multiplies exactly the states with all the given labels by the phase; exact=True without winner_state_amount raises.", "quantifier": "all register sizes, all sets of winner states, all numbers of iterations, all phases and labels", "why_tests_cant": "Real phases and all register sizes; tests sample measurement results of a few small registers.", "anchors": ["src/qrisp/algorithms/grover/grover_tools.py: grovers_alg, diffuser, tag_state", "src/qrisp/alg_primitives/reflection.py: reflection"]}
{"id": "C100", "title": "Arithmetic of block encodings", "statement": "Every expression of +, -, multiplication with a nonzero real number, negation, @ and dagger over block encodings builds a block encoding of the same expression of the encoded operators: the block of its unitary times alpha is the operator, the unitary is unitary, and a result flagged as Hermitian has a Hermitian unitary. The Kronecker product encodes the Kronecker product; sums with 0*A work as long as not both scaling factors are 0.", "quantifier": "all expressions over all block encodings with any number of ancillas, all operators, all positive scaling factors", "why_tests_cant": "Unbounded expressions over matrices with complex entries; tests sample measurement probabilities of a few small operators.", "anchors": ["src/qrisp/block_encodings/block_encoding_arithmetic_mixin.py: __add__, __sub__, __mul__, __neg__, __matmul__, kron", "src/qrisp/block_encodings/block_encoding_base.py: dagger"]}
{"id": "C101", "title": "Qubitization walk operator", "statement": "The k-th power of the unitary of B.qubitization() is a block encoding of T_k((A + A^dagger)/(2 alpha)), where B encodes A with scaling factor alpha, whether or not B is flagged as Hermitian. (False for encodings without ancillas that are not Hermitian; the flag of the result is wrong.)", "quantifier": "all block encodings with at least one ancilla (or flagged as Hermitian), all powers k", "why_tests_cant": "All operators and all powers; tests compare amplitudes of a few small operators.", "anchors": ["src/qrisp/block_encodings/block_encoding_base.py: qubitization"]}
{"id": "C102", "title": "Chebyshev polynomials of block encodings", "statement": "B.chebyshev(k, rescale=False) encodes the singular value transformation of A/alpha by T_k: g(A^dagger A) for even k with T_k(x) = g(x^2), A g(A^dagger A) for odd k with T_k(x) = x g(x^2); for Hermitian A this is T_k(A/alpha) with scaling factor 1 if k is not 1 (for k = 1 the scaling factor stays alpha).", "quantifier": "all block encodings, all degrees k", "why_tests_cant": "All operators and degrees; tests compare amplitudes of a few small operators.", "anchors": ["src/qrisp/block_encodings/block_encoding_base.py: chebyshev"]}
{"id": "C103", "title": "Measuring block encodings", "statement": "Applying the unitary of a block encoding to a state with ancillas 0 and measuring the ancillas as 0 leaves A psi / alpha, with probability |A psi|^2/alpha^2 (apply_rus); expectation_value returns the real part of <psi|A|psi> with exact probabilities.", "quantifier": "all block encodings with positive alpha, all states", "why_tests_cant": "All complex states and operators; tests sample.", "anchors": ["src/qrisp/block_encodings/block_encoding_base.py: apply_rus, expectation_value"]}
{"id": "C104", "title": "Generalized quantum signal processing applies the polynomial", "statement": "GQSP with the angles of gqsp_angles(p) applies p(U) U^(-k), divided by the returned scaling factor, to the operand when the signal ancilla is measured as 0, for every unitary U and every shift k: proved for all real polynomials, and for all polynomials with |p(conj z)| = |p(z)| on the unit circle. (False for general complex polynomials: 1 + i z.)", "quantifier": "all unitaries, all degrees, all real polynomials, all completions, all shifts", "why_tests_cant": "All polynomials, degrees and unitaries of all dimensions; tests compare a few polynomials numerically.", "anchors": ["src/qrisp/algorithms/gqsp/gqsp.py: GQSP", "src/qrisp/algorithms/gqsp/gqsp_angles.py: gqsp_angles, poly_to_nlft_sequence, _inlft, _gqsp_angles_from_nlft_sequence"]}
{"id": "C105", "title": "Conversion between powers and Chebyshev polynomials", "statement": "poly2cheb and cheb2poly are inverse to each other and describe the same polynomial in the two bases; the coefficients used for the angles after _rescale_poly are those of p(alpha x) in the Chebyshev basis, for both kinds of input.", "quantifier": "all lengths, all real coefficients, all alpha", "why_tests_cant": "All lengths and coefficients.", "anchors": ["src/qrisp/algorithms/gqsp/helper_functions.py: poly2cheb, cheb2poly, _rescale_poly"]}
{"id": "C106", "title": "Polynomials of Hermitian block encodings (GQET)", "statement": "GQET(H, p, kind, rescale) returns a valid block encoding of p(A) for the Hermitian operator A encoded by H (of p((A+A^dagger)/2) for any block encoding), with the coefficients read in the power or the Chebyshev basis as requested; without rescaling of p(A/alpha).", "quantifier": "all block encodings of all dimensions, all real polynomials of any degree in both bases, all completions", "why_tests_cant": "All polynomials, matrices and block encodings; tests compare a few numerically.", "anchors": ["src/qrisp/algorithms/gqsp/gqet.py: GQET", "src/qrisp/block_encodings/block_encoding_base.py: qubitization"]}
{"id": "C107", "title": "Hamiltonian simulation by the Jacobi-Anger expansion", "statement": "hamiltonian_simulation(H, t, N) returns a valid block encoding of J_0 + 2 sum_{m=1..N} (-i)^m J_m(alpha t) T_m(A/alpha), the Jacobi-Anger expansion of exp(-iAt) truncated after N terms, with J_m computed by the midpoint rule of the code.", "quantifier": "all block encodings, all times, all N, all completions of the form the code computes", "why_tests_cant": "All Hamiltonians, times and truncations.", "anchors": ["src/qrisp/algorithms/gqsp/hamiltonian_simulation.py: hamiltonian_simulation, jax_jv"]}
{"id": "C108", "title": "Polynomials of fixed parity (QET)", "statement": "QET(H, p) for an even or odd real polynomial p with leading coefficient of matching parity returns a valid block encoding of p(A) for Hermitian A (of g(A^dagger A) or A g(A^dagger A) in general). (False for odd polynomials given with a trailing zero, and for even polynomials with all coefficients below 1e-6.)", "quantifier": "all block encodings, all even and odd real polynomials in both bases, all completions", "why_tests_cant": "All polynomials and matrices; the wrong inputs are easily missed.", "anchors": ["src/qrisp/algorithms/gqsp/qet.py: QET"]}
{"id": "C109", "title": "Quantum singular value transformation", "statement": "QSVT(A, p, kind, parity, rescale) returns a valid block encoding of the chosen parity part of p applied to the singular values: for p(x) = g(x^2) + x h(x^2) it encodes g(A^dagger A) for even parity (arrays of length at least 3) and A h(A^dagger A) for odd parity; with rescale=False the argument is A/alpha. A right singular vector v with A v = s u, A^dagger u = s v is mapped to p_even(s) v or p_odd(s) u. For a constant polynomial the claim fails: the angle is shifted by pi/4.", "quantifier": "all block encodings, all real polynomials in both bases, both parities, all completions of the form the code computes", "why_tests_cant": "All matrices, degrees and coefficients; tests compare a few small matrices up to statistical error.", "anchors": ["src/qrisp/algorithms/gqsp/qsvt.py: QSVT", "src/qrisp/algorithms/gqsp/gqsp_angles.py: qsp_angles, qsvt_angles, laurent_to_analytic_coeffs"]}
{"id": "C110", "title": "Generalized quantum singular value transformation", "statement": "GQSVT(A, p, kind, parity, rescale) returns a valid block encoding of the chosen parity part of p: for p(x) = g(x^2) + x h(x^2) it encodes g(A^dagger A) for even parity and A^dagger h(A A^dagger) for odd parity (the adjoint of what QSVT returns); with rescale=False the argument is A/alpha.", "quantifier": "all block encodings, all real polynomials in both bases, both parities, all completions of the form the code computes", "why_tests_cant": "All matrices, degrees and coefficients.", "anchors": ["src/qrisp/algorithms/gqsp/gqsvt.py: GQSVT", "src/qrisp/block_encodings/block_encoding_base.py: _hermitianization"]}
{"id": "C111", "title": "Inversion of a block encoded matrix", "statement": "inversion(A, eps, kappa, method) returns a valid block encoding of a matrix that differs from A^-1 in operator norm by at most 2 eps/alpha, if A is invertible with ||A^-1|| <= kappa/alpha (all singular values of A/alpha at least 1/kappa) and kappa >= e^3 eps; for all three methods, for QET with Hermitian A. The coefficients of cks_coeffs are those of (1-(1-x^2)^b)/x truncated, with the b and j0 of cks_params rounded down. The documented bound eps fails for coarse eps: beta is rounded down to 1 for kappa = 5/3 and some eps < 1.", "quantifier": "all invertible matrices of all sizes, all block encodings, all eps and kappa, all three methods, all completions of the form the code computes", "why_tests_cant": "All matrices and precisions; tests compare probabilities of a few small systems.", "anchors": ["src/qrisp/algorithms/gqsp/inversion.py: inversion, _inversion_cheb", "src/qrisp/algorithms/cks.py: cks_params, cks_coeffs"]}
{"id": "C112", "title": "Pseudo inversion of a block encoded matrix", "statement": "pseudo_inversion(A, eps, theta, delta) should return a block encoding of V f(Sigma) U^dagger for A = U Sigma V^dagger. It does not: QSVT is applied to A, not to its adjoint, so a right singular vector v is mapped to a multiple of the left singular vector u. For A = |0><1| no polynomial brings the result within distance less than 1 of the pseudo inverse |1><0|.", "quantifier": "all block encodings, all polynomials, all completions (for the description of what is encoded); a concrete matrix and all polynomials (for the failure)", "why_tests_cant": "The documented example is normal with real kept singular values, for which both orders agree; the failure holds for every choice of the polynomial.", "anchors": ["src/qrisp/algorithms/gqsp/pseudo_inversion.py: pseudo_inversion"]}
{"id": "C113", "title": "CKS encodes the Chebyshev combination and approximates the inverse", "statement": "unary_prep prepares the state with amplitude sqrt(c_k/sum c) on the k-th unary string and 0 elsewhere. For a block encoding of a Hermitian matrix A with 1 <= j0 <= beta, CKS(A, eps, kappa) is a valid block encoding of (1/alpha) sum_k (-1)^k c_k T_(2k+1)(A/alpha); if kappa >= 2, kappa/eps >= e^3 and the norm of the inverse of A is at most kappa/alpha, its encoded matrix differs from the inverse of A by at most 2 eps/alpha.", "quantifier": "every number of coefficients, every positive coefficient vector, every valid block encoding of any dimension, every eps and kappa in the stated ranges", "why_tests_cant": "tests solve a few small linear systems; the identity ranges over all matrices, block encodings and coefficient counts, and the angle recursion over all lengths", "anchors": ["src/qrisp/algorithms/cks.py:140-199", "src/qrisp/algorithms/cks.py:202-506"]}
{"id": "C114", "title": "from_lcu encodes the linear combination", "statement": "For coefficients c_0..c_(m-1) that are not all zero, m >= 2, and unitaries U_i, BlockEncoding.from_lcu is a block encoding of sum c_i U_i with alpha the sum of the absolute values; it satisfies the invariants of the class (unitary; Hermitian if flagged) if the flag is not set, or if the unitaries are Hermitian and the coefficients non-negative. For one unitary and a real coefficient it encodes c U, and is a valid block encoding exactly if c >= 0.", "quantifier": "every number of terms, every complex coefficient list (real if within 1e-12 of the non-negative reals), every dimension and list of unitaries, every correct state preparation", "why_tests_cant": "tests use a few Pauli sums; complex coefficients, all lengths that are not powers of two and the flag cannot be enumerated", "anchors": ["src/qrisp/block_encodings/constructors/from_lcu.py:24-170"]}
{"id": "C115", "title": "from_projector and from_eye encode projectors and shifted identities", "statement": "from_projector(left, right) is a block encoding of |left><right| with alpha 1, with kernel=True of 1 - |left><left|. from_eye(k) on w qubits with |k| < 2^w is a block encoding of the matrix with ones on the k-th diagonal and zeros elsewhere.", "quantifier": "every dimension, every pair of unitary preparations, every width w and every diagonal -2^w < k < 2^w", "why_tests_cant": "tests check a few diagonals and states of small registers; the claim is for all widths, diagonals and preparations", "anchors": ["src/qrisp/block_encodings/constructors/from_projector.py:26-176", "src/qrisp/block_encodings/constructors/from_eye.py:22-135"]}
{"id": "C116", "title": "from_array and from_operator encode the Hermitian part", "statement": "BlockEncoding.from_operator(O) and from_array(A) give a valid, flagged-Hermitian block encoding of the Hermitian part (O + O^dagger)/2, with alpha the sum of the absolute Pauli coefficients: exactly, if no coefficient is dropped, and otherwise with an error per entry of at most (2^(n+1) (S + 2T) + 5T) * 1e-9 for T terms (nonzero entries) of absolute sum S on n qubits. Row and column numbers of the array are the numbers of the operand states.", "quantifier": "every qubit count, every operator with X, Y, Z, ladder and projector factors and complex coefficients, every 2^w x 2^w matrix, every iteration order of the dictionaries", "why_tests_cant": "tests check a few small matrices; the Pauli expansion has 4^n terms and its threshold behaviour depends on the size of every coefficient", "anchors": ["src/qrisp/block_encodings/constructors/from_array.py:24-75", "src/qrisp/block_encodings/constructors/from_operator.py:22-54", "src/qrisp/operators/qubit/qubit_operator.py:616-649", "src/qrisp/operators/qubit/qubit_operator.py:780-785", "src/qrisp/operators/qubit/qubit_operator.py:2147-2158", "src/qrisp/operators/qubit/qubit_term.py:196-218"]}
{"id": "C117", "title": "QAOA cost operators apply the phase of their cost function", "statement": "The cost operators of the QAOA problems multiply the amplitude of every basis state by a phase given by the classical cost function: MaxCut e^{-2i gamma cost}, QUBO e^{-i gamma cost / sqrt|Q|} (any matrix, including the global phase), E3Lin2 and MaxSat e^{i gamma cost}, colouring e^{2i gamma (improper edges)} in both encodings, independent set / clique / packing / cover e^{-i gamma |S|}, each up to a stated constant; app_sb_phase_polynomial and app_phase_polynomial apply e^{i t P(x)} for signed and unsigned quantum floats.", "quantifier": "every graph, clause list, matrix, polynomial, register, angle and basis state", "why_tests_cant": "tests run small optimisations and look at the most likely outcome; a wrong or missing phase term only shifts the optimum and is not visible there", "anchors": ["src/qrisp/algorithms/qaoa/problems/maxCut.py:183-215", "src/qrisp/algorithms/qaoa/problems/QUBO.py:67-97", "src/qrisp/algorithms/qaoa/problems/eThrLinTwo.py:21-53", "src/qrisp/algorithms/qaoa/problems/maxSat.py:24-115", "src/qrisp/algorithms/qaoa/problems/maxKColorableSubgraph.py:154-210", "src/qrisp/alg_primitives/arithmetic/SBP_arithmetic.py:1141-1353"]}
{"id": "C118", "title": "QAOA classical cost functions are expectation values", "statement": "The classical cost function of each QAOA problem is the expectation value, over the measured distribution, of the objective of the outcome (MaxCut: -cut; MaxSat, E3Lin2: -number of satisfied constraints; independent set: -|S| on feasible outcomes, 0 otherwise; colouring: -4^(proper edges); set cover: |S| on covers, a penalty len(sets) otherwise).", "quantifier": "every problem instance and every distribution of outcomes", "why_tests_cant": "tests use few qubits and distributions without infeasible outcomes; the truncation to 32 bits and the unweighted penalty appear only outside of these", "anchors": ["src/qrisp/algorithms/qaoa/problems/maxCut.py:37-140", "src/qrisp/algorithms/qaoa/problems/maxSat.py:52-84", "src/qrisp/algorithms/qaoa/problems/eThrLinTwo.py:56-80", "src/qrisp/algorithms/qaoa/problems/maxIndepSet.py:60-90", "src/qrisp/algorithms/qaoa/problems/minSetCover.py:62-91", "src/qrisp/algorithms/qaoa/problems/maxKColorableSubgraph.py:213-260"]}
{"id": "C119", "title": "Constrained QAOA mixers never leave the feasible set", "statement": "At every depth and for all angles, every outcome with nonzero probability is feasible: independent sets, cliques, set packings, set covers; one-hot colourings stay one-hot (XY mixer keeps the number of ones).", "quantifier": "every graph / family of sets, every depth, every list of angles", "why_tests_cant": "infeasible outcomes can have a small probability and depend on the angles; only an invariant of the circuit excludes them", "anchors": ["src/qrisp/algorithms/qaoa/mixers.py:66-99", "src/qrisp/algorithms/qaoa/mixers.py:248-303", "src/qrisp/algorithms/qaoa/problems/maxIndepSet.py:24-57", "src/qrisp/algorithms/qaoa/problems/maxClique.py:55-90", "src/qrisp/algorithms/qaoa/problems/maxSetPacking.py:24-70", "src/qrisp/algorithms/qaoa/problems/minSetCover.py:22-59", "src/qrisp/circuit/standard_operations.py:424-459"]}
{"id": "C120", "title": "The portfolio cost operator applies the phase of its cost function", "statement": "The phase applied by portfolio_cost_operator to an outcome is a function of the cost portfolio_cl_cost_function assigns to it (gamma/2 times the cost).", "quantifier": "every number of assets, old position, covariance matrix, return vector, trading cost and angle", "why_tests_cant": "the test runs one instance and checks that the optimisation finishes", "anchors": ["src/qrisp/algorithms/qaoa/problems/portfolio_rebalancing.py:24-83", "src/qrisp/algorithms/qaoa/problems/portfolio_rebalancing.py:86-133"]}
{"id": "C121", "title": "The carry-venting adder adds coherently, whatever its measurements yield", "statement": "gidney_cq_venting_adder(d, target, c_in, c_out, ctrl) maps x to x + d*ctrl + c_in mod 2^n, xors the carry out into c_out, leaves all other qubits unchanged and returns its ancillas to 0, with the same sign on every basis state for every combination of mid-circuit measurement outcomes.", "quantifier": "every register of at least six qubits, addend, register value, carry in, control and all measurement outcomes", "why_tests_cant": "the tests measure the sum, which does not see signs; the number of outcome patterns grows as 2^n", "anchors": ["src/qrisp/alg_primitives/arithmetic/adders/gidney_venting_adder.py:225-492", "src/qrisp/alg_primitives/arithmetic/adders/gidney_venting_adder.py:495-665", "src/qrisp/alg_primitives/arithmetic/adders/gidney_venting_adder.py:668-893"]}
{"id": "C122", "title": "fuse_adjacents preserves the circuit", "statement": "fuse_adjacents returns a circuit with the same operator, including its global phase (the same effect on density operators if there are measurements): fused gates (rotations, swap with a neighbour, controlled gates, composite gates through transpilation), cancellations, rewired edges and the reordering by the topological sort are all harmless.", "quantifier": "every circuit of library gates and gates composed of them, every depth of recursion, every topological order, every state", "why_tests_cant": "tests compare a few circuits; the rewiring after repeated cancellations and the recursion into composite gates have unbounded patterns", "anchors": ["src/qrisp/circuit/pass_management/passes/fuse_adjacents.py:91-266", "src/qrisp/circuit/pass_management/passes/fuse_adjacents.py:303-604", "src/qrisp/circuit/pass_management/passes/fuse_adjacents.py:613-915"]}
{"id": "C123", "title": "The higher-radix carry-lookahead adder adds", "statement": "qcla computes b += a modulo 2^len(b) for quantum addends, bit strings and integers, with and without control, and returns all carries, propagate qubits, control copies, padding qubits and ancillas to zero; the measurement-based uncomputations act on qubits in the state they require.", "quantifier": "all register sizes len(a) <= len(b), every radix base >= 2 and exponent, every classical addend, every basis state, control on or off", "why_tests_cant": "tests run a few sizes and radices; the carry tree has a different shape for each combination of size, base and exponent, and freshness checks drop gates depending on the addend", "anchors": ["src/qrisp/alg_primitives/arithmetic/adders/qcla/quantum_quantum/qq_carry_path.py:35-300", "src/qrisp/alg_primitives/arithmetic/adders/qcla/quantum_quantum/qq_sum_path.py:25-170", "src/qrisp/alg_primitives/arithmetic/adders/qcla/classical_quantum/cq_carry_path.py:235-344", "src/qrisp/alg_primitives/arithmetic/adders/qcla/classical_quantum/cq_sum_path.py:32-104"]}
{"id": "C124", "title": "Truth tables and quantum dictionaries are loaded correctly", "statement": "TruthTable.q_synth maps |x>|y> to |x>|y xor f(x)> for every truth table with the methods gray, gray_pt, pprm and pprm_pt (the _pt variants up to phases depending on x only), and a QuantumDictionary dereferenced with quantum keys puts the value of each key label into the value variable, zero for labels that are not in the dictionary, leaving the keys unchanged.", "quantifier": "all numbers of input and output qubits, all truth tables, all orders of the monomials, all dictionaries, key variables and basis states", "why_tests_cant": "there are 2^(m 2^n) truth tables; tests run a few and compare measured labels, which hides phases and the tables for which the walk goes wrong", "anchors": ["src/qrisp/alg_primitives/logic_synthesis/gray_synthesis.py:318-640", "src/qrisp/alg_primitives/logic_synthesis/pprm_synthesis.py:24-85", "src/qrisp/alg_primitives/logic_synthesis/truth_tables.py:374-427", "src/qrisp/core/quantum_dictionary.py:151-269"]}
{"id": "C125", "title": "Automatic uncomputation returns the qubits and keeps the effect of the circuit", "statement": "If uncompute_qc returns a circuit for a set of qubits, this circuit, applied to any state in which these qubits have definite values, returns them to these values, and the amplitudes of the other qubits are those of the original circuit; phase tolerant replacements of the uncomputed gates do not matter; otherwise it raises.", "quantifier": "all circuits of gates with correct permeability labels, all sets of qubits, every topological order, every order of the sets of nodes, all states (entangled ones included)", "why_tests_cant": "the graph surgery depends on the shape of the whole circuit and on hash order of sets of nodes; tests run a few circuits and compare measurement results, which hides phases and garbage left in deallocated qubits", "anchors": ["src/qrisp/permeability/qc_transformations/unqomp.py:33-420", "src/qrisp/permeability/permeability_dag.py:155-569"]}
{"id": "C126", "title": "Nested environments execute their content exactly where all conditions hold", "statement": "The circuit compiled from nested control, condition, invert and conjugate environments applies every operation of the content, with invert the inverse of the content, exactly on the part of the state where the conditions of all enclosing environments hold, and returns the qubits of the truth values to zero; phase tolerant computation of truth values does not matter.", "quantifier": "all programs of nested environments of any depth and length, all control states, all (locally acting, invertible) gates, all conditions, all states including entangled ones", "why_tests_cant": "programs nest environments in unboundedly many ways; tests run single combinations and compare measurement results, which hides phases and the behaviour on the inactive part of the state", "anchors": ["src/qrisp/environments/control_environment.py:70-361", "src/qrisp/environments/quantum_conditionals.py:306-552", "src/qrisp/environments/quantum_inversion.py:101-345", "src/qrisp/environments/quantum_environments.py:344-541", "src/qrisp/environments/conjugation_environment.py:195-229", "src/qrisp/environments/custom_control_environment.py:167-340", "src/qrisp/misc/utility.py:1348-1361"]}
{"id": "C127", "title": "Grouping gates does not change the simulated circuit", "statement": "group_qc returns a circuit with the same branches (values of the classical bits and state) as the original one for every initial state; measurements, resets and conditional instructions are kept in their order.", "quantifier": "all circuits with any number of qubits, any gates, measurements, resets, conditional gates, all initial states", "why_tests_cant": "the search over qubit sets uses integers with negated entries as bit masks and depends on the whole circuit; tests run a few circuits, usually without conditional gates on several qubits", "anchors": ["src/qrisp/simulator/circuit_preprocessing.py:41-228", "src/qrisp/simulator/circuit_preprocessing.py:494-682"]}
{"id": "C128", "title": "Reordering of the circuit keeps its meaning", "statement": "reorder_circuit raises no error, returns a permutation of the instructions, and the reordered circuit has the same branches as the original one for every initial state.", "quantifier": "all circuits, all topological orders networkx may return, all initial states", "why_tests_cant": "instructions are removed from a graph in an order given by costs, and removed nodes raise an error; the number of orders is unbounded", "anchors": ["src/qrisp/simulator/circuit_reordering.py:137-268"]}
{"id": "C129", "title": "Deferred measurements give the distribution of the circuit", "statement": "insert_multiverse_measurements replaces measurements and resets in the middle of the circuit and conditional gates by unitaries on additional qubits such that the final measurement of all recorded qubits has the distribution of the classical bits of the circuit.", "quantifier": "all circuits of gates, measurements, resets and conditional gates with any control state, all outcomes", "why_tests_cant": "the replacement depends on what follows in the circuit (permeability, resets, reuse of classical bits); a wrong distribution shows only for particular sequences", "anchors": ["src/qrisp/simulator/circuit_preprocessing.py:729-836", "src/qrisp/simulator/simulator.py:92-157"]}
{"id": "C130", "title": "The simulator returns the distribution of the circuit", "statement": "For a circuit with measurements the steps of run (grouping, reordering, cutting after the last measurement, deferred measurements, final measurement) raise no error and give each outcome its probability in the circuit.", "quantifier": "all circuits of at most 45 qubits, all gates, all outcomes", "why_tests_cant": "each step changes the circuit the next step works on; only particular combinations break the assumptions of a later step", "anchors": ["src/qrisp/simulator/simulator.py:44-157", "src/qrisp/simulator/circuit_preprocessing.py:840-852"]}
{"id": "C131", "title": "Inverse of a Jasp program", "statement": "The inverse of a Jasp program executes the inverse gates in reverse order on the same qubits, also inside calls, jrange loops and branches, with the same allocations and deletions; a program that has no inverse (measurement, reset) is rejected.", "quantifier": "all programs of gates, allocations, calls, loops and branches in any nesting, all inputs and loop bounds", "why_tests_cant": "the inverse is a program transformation; tests run it on a few programs with a few loop bounds", "anchors": ["src/qrisp/jasp/jasp_expression/inv_transform.py:44-390", "src/qrisp/jasp/program_control/jrange_iterator.py:33-109", "src/qrisp/environments/jiteration_environment.py:240-306"]}
{"id": "C132", "title": "Control of a Jasp program", "statement": "The controlled version of a Jasp program executes exactly the gates of the program if all controls are in their control states and nothing otherwise, and leaves controls and auxiliary qubit as they were; programs that cannot be controlled (measurement, reset) are rejected.", "quantifier": "all programs, numbers of controls, control states and control values", "why_tests_cant": "controls must reach every gate in every nested call, loop and branch; tests cover few nestings and few control states", "anchors": ["src/qrisp/jasp/jasp_expression/control_transform.py:93-337"]}
{"id": "C133", "title": "Integer control states of Jasp programs", "statement": "An integer control state means the same for a Jasp program as for a control environment and a controlled gate.", "quantifier": "all numbers of controls, all integers", "why_tests_cant": "tests use -1 or palindromic states, for which the order of bits does not matter", "anchors": ["src/qrisp/jasp/jasp_expression/centerclass.py:346-354", "src/qrisp/jasp/jasp_expression/control_transform.py:57-67", "src/qrisp/environments/control_environment.py:72-78", "src/qrisp/circuit/operation.py:645-648"]}
{"id": "C134", "title": "Counted operations of a dynamic program", "statement": "count_ops of a Jasp program returns, for every name of an operation, how often such operations are executed, and the number of measured qubits, for the outcomes that are given by the measurement behaviour.", "quantifier": "all programs with calls, loops, branches and dynamic arrays, all arguments, all measurement behaviours", "why_tests_cant": "the program is executed with sizes in place of arrays; every primitive must keep them right in every combination, and tests only try some programs", "anchors": ["src/qrisp/jasp/interpreter_tools/interpreters/count_ops_metric.py:49-206", "src/qrisp/jasp/interpreter_tools/interpreters/profiling_interpreter.py:411-583"]}
{"id": "C135", "title": "Number of qubits of a dynamic program", "statement": "num_qubits of a Jasp program returns the numbers of allocated and deallocated qubits, the largest number of qubits that are allocated at the same time and the number of qubits at the end, or no result if there are too many allocations.", "quantifier": "all programs, arguments, measurement behaviours and values of max_allocations", "why_tests_cant": "allocations may happen in nested loops and branches that depend on measurements", "anchors": ["src/qrisp/jasp/interpreter_tools/interpreters/num_qubits_metric.py:53-266"]}
{"id": "C136", "title": "Depth of a dynamic program", "statement": "depth of a Jasp program returns the length of the longest sequence of executed operations in which neighbours share a qubit, or no result if there are more than max_qubits qubits.", "quantifier": "all programs, arguments, measurement behaviours, values of max_qubits, static and dynamic sizes of arrays", "why_tests_cant": "the identity of every qubit must survive slicing, concatenation and passing through calls and loops; tests only see a single number for some programs", "anchors": ["src/qrisp/jasp/interpreter_tools/interpreters/depth_metric.py:43-368"]}
{"id": "C137", "title": "Boolean simulation of a dynamic program", "statement": "boolean_simulation of a Jasp program of gates that permute basis states returns the measured numbers of the execution of the program, and submits a warning for every qubit that is deleted in state 1.", "quantifier": "all programs with calls, loops, branches, dynamic arrays, allocations and deletions, all arguments, all sizes of the bit array", "why_tests_cant": "places of qubits are recycled, bits are packed into words and arrays are lists of limited capacity; whether two live qubits never share a place is an invariant of every sequence of allocations and deletions", "anchors": ["src/qrisp/jasp/evaluation_tools/boolean_simulation.py:63-303", "src/qrisp/jasp/interpreter_tools/interpreters/cl_func_interpreter.py:169-527", "src/qrisp/jasp/interpreter_tools/interpreters/cl_func_interpreter.py:923-1152", "src/qrisp/jasp/interpreter_tools/dynamic_list.py:25-150"]}
{"id": "C138", "title": "Loops over jrange", "statement": "A loop `for i in jrange(start, stop)` executes its body for all indices of range(start, stop), with values carried from one iteration to the next as in the Python loop, although only two iterations are traced; a body that behaves differently in the second iteration is rejected.", "quantifier": "all straight-line bodies of operations and assignments, all meanings of the primitives, all bounds, all initial values", "why_tests_cant": "the loop is reconstructed from the variables of two traced iterations; which input of the second iteration comes from where has infinitely many patterns, and the number of iterations is not bounded", "anchors": ["src/qrisp/jasp/program_control/jrange_iterator.py:45-109", "src/qrisp/environments/jiteration_environment.py:98-367", "src/qrisp/jasp/jasp_expression/environment_collection.py:47-264"]}
{"id": "C139", "title": "Merging quantum sessions", "statement": "However a program creates sessions and variables, applies gates across sessions, deletes variables and merges sessions: two sessions share their circuit exactly if they were brought together directly or through others; the circuit of a session contains every instruction given for its variables once, in the given order up to exchanging neighbouring instructions on different qubits; its qubits are listed in the order of creation of the variables; variables of a session have different names and their qubits different identifiers; a merge fails only if both sessions have a variable with the same name given by the user, and names given by the user are not changed.", "quantifier": "all programs of session creations, variable creations, duplications, gates on any qubits, deletions and merges, of any length", "why_tests_cant": "the order of merges, their direction and the sharing of lists between sessions give unboundedly many histories; tests only look at a few of them and mostly at the final measurement", "anchors": ["src/qrisp/core/session_merging_tools.py:45-319", "src/qrisp/core/quantum_session.py:191-220", "src/qrisp/core/quantum_session.py:292-307", "src/qrisp/core/quantum_session.py:364-379", "src/qrisp/core/quantum_session.py:422-520", "src/qrisp/core/quantum_variable.py:250-280", "src/qrisp/core/quantum_variable.py:525-575"]}
{"id": "C140", "title": "Lazily permuted arrays of the simulator", "statement": "However an array of the simulator is reshaped, its axes swapped or moved to the front, its swaps applied and its representation changed between sparse and dense: its shape and entries are those that numpy gives for the same sequence, and reshapes to another size raise an exception.", "quantifier": "all arrays with power-of-two axes, sparse or dense, all sequences of operations of any length", "why_tests_cant": "swaps are only recorded as a permutation of index bits and applied later by shifting runs of bits; the permutations and the groupings into runs are unboundedly many", "anchors": ["src/qrisp/simulator/bi_arrays.py:237-446", "src/qrisp/simulator/bi_arrays.py:740-897", "src/qrisp/simulator/bi_arrays.py:555-566", "src/qrisp/simulator/bi_arrays.py:677-695", "src/qrisp/simulator/bi_arrays.py:1073-1108", "src/qrisp/simulator/bi_array_helper.py"]}
{"id": "C141", "title": "Tensor contraction in the simulator", "statement": "tensordot of two arrays is the tensor contraction over the given axes (the tensor product if there are none), whichever representation and multiplication routine the sparsity estimates choose; the own product of sparse matrices is the matrix product and lists no place twice; axes of different total size raise an exception.", "quantifier": "all arrays with power-of-two axes over any commutative ring, all lists of different axes, all choices of representation and routine", "why_tests_cant": "which routine runs depends on estimated sparsities, and the axes are moved through recorded permutations; a test sees a few shapes and one routine each", "anchors": ["src/qrisp/simulator/bi_arrays.py:448-552", "src/qrisp/simulator/bi_arrays.py:900-1018", "src/qrisp/simulator/bi_arrays.py:1175-1296", "src/qrisp/simulator/bi_array_helper.py:390-612"]}
{"id": "C142", "title": "States of the simulator have the right amplitudes", "statement": "Any sequence of unitary matrices on any qubits, disentangling requests, new qubits and measurements, applied to a fresh QuantumState, raises no exception and yields the amplitudes and the measurement outcomes of quantum mechanics: without measurements the state vector is exactly the product of the matrices applied to |0...0>, with measurements it is the projected and normalised vector up to one phase. Splitting the state into tensor factors, merging, swapping, disentangling and the automatic clean-up of large factors are invisible.", "quantifier": "all numbers of qubits, all sequences of operations with matrices of orthonormal columns over any field with square roots of norms (in particular the complex numbers), all random numbers, all orders of Python sets, all choices between sparse and dense arrays", "why_tests_cant": "which factors are merged, in which order, which representation is used and when disentangling is tried depends on set order, sparsity estimates and sizes above 25 or 63 qubits that tests do not reach", "anchors": ["src/qrisp/simulator/quantum_state.py:34-172", "src/qrisp/simulator/quantum_state.py:228-241", "src/qrisp/simulator/tensor_factor.py:28-108", "src/qrisp/simulator/tensor_factor.py:163-169", "src/qrisp/simulator/tensor_factor.py:198-273"]}
{"id": "C143", "title": "Measuring several qubits at once gives Born's distribution", "statement": "QuantumState.multi_measure returns every outcome of non-zero probability exactly once with the probability of Born's rule, the probabilities sum up to one, and bit k of an outcome is the value of the k-th qubit given, however the qubits are spread over tensor factors.", "quantifier": "all states reached by any sequence of operations, all lists of different qubits in any order", "why_tests_cant": "outcomes of the factors are grouped by object, joined by shifts and permuted back; a mistake shows only for particular groupings and orders", "anchors": ["src/qrisp/simulator/quantum_state.py:174-226", "src/qrisp/simulator/quantum_state.py:244-273", "src/qrisp/simulator/tensor_factor.py:171-196", "src/qrisp/simulator/bi_arrays.py:609-700", "src/qrisp/simulator/bi_arrays.py:1030-1110"]}
{"id": "C144", "title": "Measurement of a qubit is consistent and repeatable", "statement": "The probabilities of the two outcomes of a qubit sum up to one in every reachable state; a measurement returns an outcome of non-zero probability, and if both are possible it is 0 exactly if the random number is less than the probability of 0; a repeated measurement returns the same outcome, or 0 if the first one was told to reset the qubit.", "quantifier": "all states reached by any sequence of operations, all qubits, all random numbers", "why_tests_cant": "random outcomes are sampled; impossible outcomes and probabilities that do not add up appear only for particular states", "anchors": ["src/qrisp/simulator/quantum_state.py:128-172", "src/qrisp/simulator/tensor_factor.py:111-161"]}
{"id": "C145", "title": "The extracted post-processing function computes the results of the program", "statement": "For every Jasp program with loops, branches, calls, qubit arrays and classical computations: the function of extract_post_processing, applied to the outcomes of the measurements in their order, returns the classical results of the program and has consumed exactly as many bits as the program measured. Exceptions (shown wrong): slices with negative or too large bounds, fused single qubits, called programs with constants.", "quantifier": "all programs, all arguments, all sequences of measurement outcomes", "why_tests_cant": "the position of a bit depends on all sizes, loops and branches before it; tests fix a few programs and a few outcomes", "anchors": ["src/qrisp/jasp/interpreter_tools/interpreters/post_processing_interpreter.py:62-470", "src/qrisp/jasp/interpreter_tools/abstract_interpreter.py:124-232", "src/qrisp/jasp/primitives/parity_primitive.py:231-241"]}
{"id": "C146", "title": "The circuit extracted from a program does what the program does", "statement": "For every Jasp program and all outcomes of the measurements: the circuit of to_qc, run with these outcomes, performs the same operations in the same order on corresponding qubits as the program, including operations under the condition of a measured bit, and the returned bits, lists of bits and parities have the values of the results of the program. Exceptions (shown wrong): quantum operations whose parameters are computed from measurements, loops on measured bits, parities of parities with expectation 1 or of known values.", "quantifier": "all programs, all arguments, all sequences of measurement outcomes", "why_tests_cant": "each sequence of outcomes takes other branches; equivalence has to hold for all of them at the same time", "anchors": ["src/qrisp/jasp/interpreter_tools/interpreters/qc_extraction_interpreter.py:642-995", "src/qrisp/jasp/interpreter_tools/interpreters/jaspr_to_gate_interpreter.py:21-98", "src/qrisp/jasp/interpreter_tools/interpreters/control_flow_interpretation.py:65-124", "src/qrisp/jasp/primitives/measurement_primitive.py:56-114"]}
{"id": "C147", "title": "Post-processing of the results of the circuit gives the results of the program", "statement": "For every program whose measurements do not stand under the condition of a measured bit: the key of a run of the circuit lists the outcomes in the order of the program, and the extracted post-processing function maps the key to the results of the program. With a measurement under a condition it does not (shown by a program).", "quantifier": "all programs, all arguments, all sequences of measurement outcomes", "why_tests_cant": "the order of bits in the key, in the circuit and in post-processing come from three places and have to agree for all programs", "anchors": ["src/qrisp/jasp/primitives/measurement_primitive.py:64-80", "src/qrisp/jasp/interpreter_tools/interpreters/post_processing_interpreter.py:149-180", "src/qrisp/jasp/interpreter_tools/interpreters/jaspr_to_gate_interpreter.py:62-98", "src/qrisp/simulator/simulator.py:322-398"]}
{"id": "C148", "title": "IQAE never loses the angle", "statement": "In iterative amplitude estimation, whenever the shares of shots are within the tolerance E of the amplified probabilities: in every round an entry of the table L_arr/m_arr fits, the true angle lies between theta_b and theta_sh, and the returned value is within eps of the amplitude.", "quantifier": "all amplitudes, all accuracies, all sequences of shares", "why_tests_cant": "tests run random samples of a few amplitudes; that an entry of the table always fits is a statement on all real intervals, a gap would be met only for rare shares", "anchors": ["src/qrisp/alg_primitives/iterative_qae.py:118-181", "src/qrisp/alg_primitives/iterative_qae.py:225-292"]}
{"id": "C149", "title": "IQAE ends, and stays within its budget", "statement": "The loop of IQAE ends after at most n rounds if pi/4 <= eps 3^n, whatever the shots give; K_i is always odd, so the (K_i-1)/2 iterations amplify the angle to K_i times itself; the allowed failure probabilities alp_i of the rounds add up to at most alpha; the number of shots N_i makes the Hoeffding bound at most alp_i.", "quantifier": "all eps in (0,1], all alpha, all sequences of shares in [0,1]", "why_tests_cant": "unbounded number of rounds; worst-case sequences of shares practically never appear in a test", "anchors": ["src/qrisp/alg_primitives/iterative_qae.py:127-178"]}
{"id": "C150", "title": "IQAE is right with probability 1 - alpha", "statement": "With independent shots, the probability that IQAE returns a value that is not within eps of the amplitude sin^2 t is at most alpha.", "quantifier": "all amplitudes, all eps in (0,1], all alpha in (0,1]", "why_tests_cant": "a bound of a probability over adaptive experiments cannot be tested by samples", "anchors": ["src/qrisp/alg_primitives/iterative_qae.py:25-181", "src/qrisp/alg_primitives/iterative_qae.py:184-222"]}
{"id": "C151", "title": "Expectation values by terminal sampling are the mean of the shots", "statement": "If the simulator evaluates expectation_value with terminal sampling (one run of the program, all shots drawn from the final state), the result is the mean of the decoded and post-processed results of the loop over these shots: each measured integer is split into the integers of the returned variables, decoded and weighted with its count.", "quantifier": "all lists of drawn outcomes, all numbers and sizes of returned variables, all decoders and post-processors", "why_tests_cant": "tests compare random means with tolerances for a few programs; wrong splitting or weighting of rare outcomes stays within them", "anchors": ["src/qrisp/jasp/interpreter_tools/interpreters/terminal_sampling_interpreter.py:152-344", "src/qrisp/jasp/program_control/ev.py:48-256", "src/qrisp/jasp/evaluation_tools/buffered_quantum_state.py:131-153", "src/qrisp/simulator/simulator.py:207-217"]}
{"id": "C152", "title": "Samples by terminal sampling are the samples of the loop", "statement": "sample and terminal_sampling return the decoded and post-processed results of the shots: the array has the results of the loop in some order, the dictionary has the number (without shots: the probability) of each value, most frequent first. Exceptions (shown wrong): if a post-processor or decoder gives several outcomes the same value, all but the last are lost; sample called from Python ignores the post-processor.", "quantifier": "all lists of drawn outcomes, all returned variables, all decoders and post-processors", "why_tests_cant": "tests use a few injective post-processors, so lost counts are never seen", "anchors": ["src/qrisp/jasp/interpreter_tools/interpreters/terminal_sampling_interpreter.py:239-330", "src/qrisp/jasp/program_control/sampling.py:49-288", "src/qrisp/jasp/evaluation_tools/terminal_sampling.py:21-138"]}
{"id": "C153", "title": "Conversion to PRX gates keeps the unitary of a circuit", "statement": "convert_to_prx replaces every single qubit gate of a circuit by at most two PRX gates and appends one global phase such that the unitary of the circuit is unchanged, including its global phase; no other single qubit gates are left. With classically controlled gates the circuit acts the same up to a global phase for every value of the classical bits.", "quantifier": "all circuits, all gate angles, all values of classical bits, all states", "why_tests_cant": "tests check a handful of angles; angles at which a dropped rotation is the negative identity (for example X and Y gates) and classically controlled gates are missed", "anchors": ["src/qrisp/circuit/pass_management/passes/convert_to_prx.py:13-166", "src/qrisp/circuit/operation.py:432-488", "src/qrisp/circuit/operation.py:869-914", "src/qrisp/circuit/quantum_circuit.py:1686-1690"]}
{"id": "C154", "title": "Collecting global phases and the Gray synthesis of Toffoli gates keep the circuit", "statement": "decompose(collect_gphases=True) removes all global phase gates and appends one gate with their sum, so that the unitary is unchanged and at most one global phase gate is left. gray_synth_toffoli gives every Toffoli gate, for every control state, a definition that is the Toffoli gate up to a fixed global phase.", "quantifier": "all circuits, all phases, all control states, all states", "why_tests_cant": "tests compare unitaries of a few small circuits; circuits of global phases alone and mixed control states in larger circuits are not covered", "anchors": ["src/qrisp/circuit/pass_management/passes/decompose.py:30-57", "src/qrisp/circuit/pass_management/passes/gray_synth_toffoli.py:36-180", "src/qrisp/alg_primitives/mcx_algs/circuit_library.py:21-27", "src/qrisp/circuit/standard_operations.py:394-416"]}
{"id": "C155", "title": "QIRO keeps independent sets feasible in every round", "statement": "find_max returns the item with the largest absolute correlation and its sign. After any number of rounds of the independent set replacement routine, with any measurement results, the solutions are distinct and independent in the original graph, every independent set of the remaining graph can be added to them, and the controlled mixer started in the initial state reaches only independent sets. A round keeps every independent set that agrees with the chosen correlation. Set packing is reduced to this problem correctly.", "quantifier": "all graphs without loops, all lists of measurement results, all numbers of rounds, all reached bit strings", "why_tests_cant": "tests run one random graph and check that the result is a good independent set; which correlation is chosen depends on the results of an optimiser, so most branches are never taken", "anchors": ["src/qrisp/algorithms/qiro/qiroproblems/qiro_utils.py:21-71", "src/qrisp/algorithms/qiro/qiroproblems/qiroMaxIndepSet.py:25-185", "src/qrisp/algorithms/qiro/qiro_mixers.py:90-164", "src/qrisp/algorithms/qiro/qiroproblems/qiroMaxSetPack.py:23-47", "src/qrisp/algorithms/qiro/qiro_problem.py:146-195"]}
{"id": "C156", "title": "QIRO solutions for the clique problem are cliques", "statement": "After any number of rounds of the clique replacement routine the solutions form a clique of the original graph, every clique of the remaining graph can be added to them, and each node is either remaining or excluded.", "quantifier": "all graphs without loops, all lists of measurement results, all numbers of rounds", "why_tests_cant": "tests check the result of one run on a random graph; the pairs that break the solution depend on measurement results", "anchors": ["src/qrisp/algorithms/qiro/qiroproblems/qiroMaxClique.py:26-103", "src/qrisp/algorithms/qiro/qiroproblems/qiro_utils.py:21-71", "src/qrisp/algorithms/qiro/qiro_mixers.py:136-164"]}
{"id": "C157", "title": "QIRO reduction of satisfiability problems keeps the number of satisfied clauses", "statement": "For all assignments that agree with the correlations chosen in the rounds, the number of satisfied clauses of the reduced problem differs from that of the original problem by a constant. Fixed variables do not occur in the reduced problem, the initial state gives the fixed variables their values, and no other variable is fixed.", "quantifier": "all sets of clauses, all lists of measurement results, all numbers of rounds, all assignments", "why_tests_cant": "tests run one problem and check the energy of the best result; wrong qubits and skipped clauses only make the result worse", "anchors": ["src/qrisp/algorithms/qiro/qiroproblems/qiroMaxSat.py:27-125", "src/qrisp/algorithms/qiro/qiroproblems/qiro_utils.py:21-71", "src/qrisp/algorithms/qiro/qiro_mixers.py:136-164"]}
{"id": "C158", "title": "Amplitude estimation and quantum counting have the stated accuracy", "statement": "If the good states have the probability a, the estimate sin^2(pi Y/M) from the result Y of QAE with M = 2^precision differs from a by at most pi/M (the documentation: 2 pi/M + pi^2/M^2) with probability at least 8/pi^2. If a = sin^2(pi k/M), the results are k and M-k with probability 1/2 each. quantum_counting gives the number of marked states up to pi N/M with probability at least 8/pi^2; the most likely result, which is taken outside of tracing mode, always has an error of at most pi^2 N/(2 sqrt 2 M), so that rounding gives the exact number once M >= 7 N.", "quantifier": "all state functions (lists of gates), all oracles, all sizes of the registers, all probabilities of the good states including 0 and 1", "why_tests_cant": "the bound is a probability over real amplitudes for every state function and every precision; tests run a few angles, mostly exact ones", "anchors": ["src/qrisp/alg_primitives/qae.py:27-217", "src/qrisp/algorithms/quantum_counting.py:24-87", "src/qrisp/alg_primitives/qpe.py:121-143", "src/qrisp/alg_primitives/amplitude_amplification.py:126-150"]}
{"id": "C159", "title": "Monte Carlo integration returns the Riemann sum of the integrand, and can be repeated", "statement": "With the uniform distribution, QMCI returns (for the exact probability) the Riemann sum of the integrand over the grid of the x registers, if its values are numbers of the y register; otherwise each value is rounded up to the grid of y, which adds at most one step of y times the volume, and truncated to the range of y. An error eps of IQAE becomes an error of V0*eps. With a distribution it returns the mean of the integrand times the volume of the x registers. The arguments of the caller are not changed, so that a second call gives the same result.", "quantifier": "all numbers and sizes of registers, all exponents, all integrands, all distributions given by a circuit", "why_tests_cant": "tests integrate one polynomial on one grid and accept the statistical error; truncation and rounding depend on the integrand, and the list of the caller is never used twice", "anchors": ["src/qrisp/algorithms/qmci.py:22-117", "src/qrisp/alg_primitives/iterative_qae.py:1-60"]}
{"id": "C160", "title": "Arithmetic, reduction and comparison of fermionic operators", "statement": "Sums, differences, products, multiples, dagger, hermitize, to_qubit_operator and from_openfermion of FermionicOperator give the operators they name; coefficients are right up to twice the threshold; find_minimal_qubit_amount is the least number of modes. reduce() keeps the operator (up to the sorting defect of C35). reduce(assume_hermitian=True) keeps a Hermitian operator, read as its Hermitian part. a == b is True exactly if the operators are equal. The last two are false: with complex coefficients the first can give 0, and == accepts adjoints and negatives and rejects equal operators.", "quantifier": "all operators, all numbers of modes, all coefficients", "why_tests_cant": "All ladder sequences and coefficients; equality of operators on any number of modes.", "anchors": ["src/qrisp/operators/fermionic/fermionic_operator.py: reduce, dagger, hermitize, __eq__, __add__, __sub__, __rsub__, __mul__, to_qubit_operator, from_openfermion, find_minimal_qubit_amount", "src/qrisp/operators/fermionic/fermionic_term.py: sort, dagger, __mul__"]}
{"id": "C161", "title": "Fermionic swaps and matching", "statement": "get_unipolars returns the modes with an odd number of ladder operators, in falling order. For every group of terms the swaps of kai_pflaume are swaps of neighbours, apply_fermionic_swaps gives the qubits in the order of the returned permutation, and the permuted term conjugated with the gates CZ on the relabelled qubits is the operator of the term; likewise for apply_fermionic_swap with any permutation. The matching moves the singles to the front and makes the partners of all couples neighbours, so that the qubit term of every even term has no factor Z and the error \"Fermionic matching failed\" is never raised. The last sentence is false if a group holds two odd terms on the same modes.", "quantifier": "all groups of terms, all numbers of modes, all permutations", "why_tests_cant": "All sets of singles and couples; the sign bookkeeping of CZ gates against Jordan-Wigner strings on any number of modes.", "anchors": ["src/qrisp/operators/fermionic/trotterization.py: fermionic_trotterization, kai_pflaume, apply_fermionic_swaps, apply_fermionic_swap, get_swaps_for_permutation", "src/qrisp/operators/fermionic/fermionic_term.py: fermionic_swap, get_unipolars, to_qubit_term"]}
{"id": "C162", "title": "Loops with a quantum bound", "statement": "for i in qRange(n): body(i) runs body(0), ..., body(n-1) for every value of n, in superposition; afterwards n has its old value, and the additional qubits (the extension, or the copied index with create_index_qf=True) are 0 when they are given back. The first half holds for n >= 0 and fails for every negative bound; the second half is false for every bound: n ends as n-1.", "quantifier": "all register sizes, all bounds, all loop bodies", "why_tests_cant": "All bounds and bodies; tests look at the sum, not at the bound or the freed qubits afterwards.", "anchors": ["src/qrisp/misc/qrange.py: qRange.__iter__, qRange.__next__"]}
{"id": "C163", "title": "Floor, ceiling, rounding and fractional part of quantum floats", "statement": "q_floor gives the floor, q_ceil the ceiling, q_round the nearest integer (halves up) and q_fractional the fractional part (sign of the value) of every value of a QuantumFloat; results that do not fit are taken modulo the register size; the flag qubit is 0 when deleted; the parts of q_modf add up to the value. False: q_floor with positive exponents, q_modf for negative values with a fraction.", "quantifier": "all register sizes, exponents, signed and unsigned floats, all values", "why_tests_cant": "Tests enumerate small unsigned floats; the claim is about all sizes, exponents and signs.", "anchors": ["src/qrisp/alg_primitives/arithmetic/arithmetic_tools.py: q_floor, q_ceil, logical_OR, q_round, q_fractional, q_modf"]}
{"id": "C164", "title": "Maximum and minimum of quantum floats", "statement": "q_max(a, b) and q_min(a, b) give a QuantumFloat with the maximum or minimum of the values of a and b, for all sizes, exponents and signs. False if the selected value is negative and its mantissa ends below the highest significance of the result.", "quantifier": "all shapes that overlap or touch, all values", "why_tests_cant": "All combinations of sizes, exponents, signs and values.", "anchors": ["src/qrisp/alg_primitives/arithmetic/arithmetic_tools.py: q_max, q_min"]}
{"id": "C165", "title": "Example problems of the counterdiabatic optimiser", "statement": "For each example matrix Q3 to Q10 the dictionary beside it lists exactly the bit strings with the lowest cost x^T Q x, with that cost; with a correct entry the approximation ratio of every measurement is at most 1. False for Q10: the listed string is not optimal and its cost is listed wrongly.", "quantifier": "all bit strings, all measurements", "why_tests_cant": "All bit strings of each length and all probability distributions over them.", "anchors": ["src/qrisp/algorithms/cold/problems/qubo_problems.py", "src/qrisp/algorithms/cold/cold_benchmark.py", "src/qrisp/algorithms/cold/dcqo_problem.py: DCQOProblem.QUBO_cost"]}
{"id": "C166", "title": "Nodes of the quantum backtracking tree", "statement": "init_node followed by path_decoder gives the path back, in a tree and (with the root path in front) in a subtree; the diffusion step flips the sign of a node of parent parity exactly if it is not accepted and of a child exactly if its parent is rejected; init_phi prepares the nodes along a path with alternating sign; copy gives the same tree. False for subtrees in the last two points.", "quantifier": "all depths, paths, subtrees, accept and reject functions", "why_tests_cant": "All depths, paths and predicates.", "anchors": ["src/qrisp/algorithms/quantum_backtracking/backtracking_tree.py: QuantumBacktrackingTree, Subtree, OHQInt"]}
{"id": "C167", "title": "Search for a solution in the backtracking tree", "statement": "A path returned by find_solution is accepted, whatever the quantum subroutine measures. If at every node the measurement has weight at most 1/4 on phase 0 without a solution below, and otherwise weight above 3/8 and some outcome leading to a solution, the search returns a solution if there is one and None otherwise, with at most one recursion level per layer.", "quantifier": "all depths, accept functions, measurement outcomes", "why_tests_cant": "All trees and all measurement outcomes.", "anchors": ["src/qrisp/algorithms/quantum_backtracking/backtracking_tree.py: find_solution"]}
{"id": "C168", "title": "Conversion of a circuit to Stim", "statement": "The Stim circuit made from a Qrisp circuit acts on the quantum state as the circuit does, the recorded measurement at the mapped place is the value of each classical bit at the end, feedback acts under the condition of the circuit, the k-th detector and each observable have the parity of their bits at the time of the instruction, and the detector map gives the index of each detector.", "quantifier": "all circuits, quantum states, gate and measurement behaviours", "why_tests_cant": "All orders of measurements, re-measurements, feedback and parity instructions; relative record indices depend on the whole history.", "anchors": ["src/qrisp/interface/converter/stim_converter.py: qrisp_to_stim"]}
{"id": "C169", "title": "Provider jobs return their result", "statement": "Whatever calls are made before and whatever the remote side answers, result() of a Qiskit, IQM or AQT job returns the result of the job or raises; it never returns None, and if the remote side gives the result, the caller gets it. A final status stays.", "quantifier": "all sequences of status, cancel and result calls with arbitrary remote answers", "why_tests_cant": "All call histories against all behaviours of a remote service.", "anchors": ["src/qrisp/interface/provider_backends/qiskit_backend.py: QiskitJob", "src/qrisp/interface/provider_backends/iqm_backend.py: IQMJob", "src/qrisp/interface/provider_backends/aqt_backend.py: AQTJob", "src/qrisp/interface/job.py: JobStatus"]}
