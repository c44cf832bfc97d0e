# Design of the formal model of Qrisp

Source under study: `/repo` (eclipse-qrisp/Qrisp, Python). All paths below are
relative to `/repo/src/qrisp` unless stated otherwise.

## Trusted base

* Lean 4.33.0's kernel and Mathlib's statements.
* Axioms: only `propext`, `Classical.choice`, `Quot.sound` (checked with
  `#print axioms` for every property theorem). No own axioms, no `sorry`,
  no `native_decide`, no `bv_decide`.
* The transcription from Python to Lean. Every model definition carries a comment
  with the file and the lines it transcribes and says where it simplifies. Nothing
  checks this transcription mechanically.

## Conventions of the model

* Python integers are `Int`/`Nat`; `uint32`/`uint64` JAX arrays are `Nat` with the
  wrap-around written explicitly (`% 2^32`, `% 2^64`).
* Exceptions are values (`Except`/`Option`).
* JAX loops (`fori_loop`, `while_loop`, `scan`) are structural recursion on the trip
  count, or fuel recursion with a theorem that the fuel suffices.
* Reversible circuits (X, CX, MCX with control state, SWAP) are lists of gates acting on
  `Q → Bool` (basis states); a separate quantum semantics acts on amplitude
  functions `(Q → Bool) → ℂ`.
* The Gidney logical AND (`method="gidney"`) is treated as a Toffoli in the basis
  state model; a theorem in the quantum semantics justifies this.
* Floating point: parameters/angles are exact reals, probabilities are exact rationals.

## Areas

| Area | Properties | Lean directory | Technique |
|---|---|---|---|
| A limb arithmetic (`jasp_bigintiger.py`) | C01–C08 | `Verif/Limb` | induction on limb lists; refinement to `Nat` |
| B number theory helpers, Shor, RSA | C09–C12, C53–C56 | `Verif/NumTheory` | loop invariants |
| C reversible arithmetic circuits | C13–C20, C41–C45 | `Verif/Rev` | induction on register length over basis states |
| D circuits and passes | C21–C30, C46–C48 | `Verif/Circ` | linear semantics on amplitude functions, induction on instruction list |
| E operators | C31–C35, C49–C51, C160–C161 | `Verif/Oper` | 2×2 matrices tensored over qubit maps |
| F backends and results | C36–C38, C168–C169 | `Verif/Iface` | state machines with invariants over call histories |
| G quantum types, containers, rounding | C39, C40, C52, C163–C164 | `Verif/Types` | refinement to integers/lists |
| H compilation and uncomputation | C57–C60 | `Verif/Comp` | graph invariants, commutation of matrices, exchange argument |
| I multi-controlled gates | C61–C68 | `Verif/Mcx` | basis states with arbitrary relative phases; path sums over ℤ[ω] checked by the kernel for all local basis states and lifted to all layouts |
| J Fourier arithmetic and amplitude algorithms | C69–C75, C99, C158–C159 | `Verif/Fourier` | amplitude functions over ℂ, phases as rational turns; sum formula of the transform by induction, shift by reindexing, conjugation lemma |
| K quantum float arithmetic | C76–C78, C83–C88 | `Verif/Sbp` | semi-boolean polynomials over ℚ, encoded by phases between two Fourier transforms; the operator is a permutation of basis states |
| L shifts, permutations, indexing of iterables | C79–C82 | `Verif/Iter` | swaps of positions; disjoint swaps as reflections, invariant of the cycle decomposition, recursion on the control bits |
| M control structures, linear combinations | C89, C90, C162 | `Verif/Ctl` | walk over the leaves of the index tree as an invariant of the ancillas; branches are arbitrary functions |
| N state preparation | C91–C94 | `Verif/Circ`, `Verif/Prep` | matrices of the gates; invariants on patterns of basis states, induction on the number of qubits |
| O simulation of operators | C95–C98 | `Verif/Ham` | diagonal conjugations; matrices on tensor products acting on amplitude functions; invariants of greedy colourings |
| P block encodings, quantum signal processing | C100– | `Verif/Blk` | matrices on ancillas × operands over ℂ; blocks of products; Chebyshev recurrence of the walk; layer stripping with an invariant on the unit circle |
| Q environments | C126– | `Verif/Env` | operators on amplitude functions; commuting projectors; induction on program trees |
| R simulator | C127– | `Verif/Sim` | branches (classical bits, unnormalised state) as meaning of a circuit; local operators commute; reordering by independent neighbours; pending measurements as an invariant |
| S Jasp programs | C131–C138 | `Verif/Jasp` | jaxprs as lists of equations with calls, loops and branches; traces of executed operations; inversion and control as transformations of programs |
| T sessions | C139– | `Verif/Sess` | sessions with shared lists as roots and shadows; a record of the program as specification; an invariant over lists of operations; circuits up to exchanging independent neighbours |
| U arrays and states of the simulator | C140– | `Verif/Tens` | entries as functions of index bits; operations keep the entries; contraction by sums over bit strings; numpy arrays as specification |
| V circuits and post-processing of Jasp programs | C145– | `Verif/Jasp/Extract*` | three interpretations of one `eval`; simulation relations; a world maps qubits and bits |
| W iterative amplitude estimation | C148– | `Verif/Iqae` | real analysis: the table covers all intervals of width 2E; geometric growth of K; Hoeffding's inequality; probability bound by induction on the rounds |
| X sampling from Jasp programs | C151– | `Verif/Samp` | the loop over the shots as specification; counts as a permutation of the shots |
| Y circuit passes: PRX gates, global phases | C153– | `Verif/Circ/Prx`, `Verif/Circ/Phases` | 2×2 matrices; the phase of each step; signs counted over the circuit |
| Z QIRO replacement routines | C155– | `Verif/Qiro` | graphs as lists; invariants over rounds with arbitrary results; bit strings that the mixer reaches |
| AA example problems of the optimiser | C165 | `Verif/Opt` | finite tables checked whole by the kernel; ratio bound for all measurements |
| AB quantum backtracking | C166–C167 | `Verif/Tree` | node encoding on basis states; the search as a recursion over an arbitrary measurement |

## Per property plan

* C01–C06, C08: limbs as `List Nat` with all entries below 2^32, `val` is the
  little-endian value. Proved by induction on the list for any length.
* C07: single-limb division fully; Knuth division is modelled with its 64-bit
  wrap-around. The claim is false of the code (`rhat << 32` wraps); plan: negation with
  a concrete witness plus a guarded correctness theorem (`_partial`).
* C09, C10: loop invariants of the extended Euclidean algorithm, modular arithmetic.
  Even moduli are a documented exception (negation witness).
* C11, C12: direct.
* C13–C20: circuits as gate lists / state transformers generated for every n. Adders used as
  subroutines in C16–C19 enter as an arbitrary function with the adder specification.
* C21, C22, C25–C29: amplitude semantics. Where the code is wrong (name-only matching
  ignoring control state) the negation is proved with a witness and the guarded claim is
  proved for the remaining circuits.
* C23, C30, C36–C38, C40: transition systems, invariants over arbitrary call lists.
* C24: longest path characterisation (upper bound for all chains plus a chain attaining it).
* C31–C35, C49–C51: terms are association lists from qubit to factor, operators association lists from
  term to coefficient; the semantics is the matrix over `Fin n → Bool`. Iteration order of Python sets is an
  explicit parameter restricted only to enumerate the keys. Coefficients are complex numbers or Gaussian
  integers; the 1e-9 threshold is kept and gives an entrywise error bound.
* C39, C52: rationals; float64 is rounding to 53 significant bits, half to even, without exponent limits
  (no overflow, no subnormals). `jnp.int64` conversions are unbounded.

* C57–C59: instructions carry an arbitrary label; the effect is any action in which instructions sharing only qubits
  of equal permeability type commute (structure `Interp`), and the matrices over `Fin n → Bool` are shown to be such an
  action. networkx traversals are modelled as Kahn's algorithm with an arbitrary choice of the next node.
* C60: amplitudes are functions on `Nat → Bool`; a relation between the logical and the physical state is kept by
  every pass of the loop.
* C61–C65: phase tolerant gates carry an arbitrary phase function; the logical AND is defined only on targets in state 0.
* C66–C68: amplitude functions over a ring with an eighth root of unity, instantiated with ℂ. A measurement is a
  projection on an arbitrary outcome, a reset after it is an X conditioned on the outcome. `sx` is RX(π/2) up to a global
  phase. Not modelled: `balauca_dirty`, `vchain_2_dirty`.

* C69–C71: angles are exact rationals of a turn (the code uses floats). The accumulated phases of `QFT_inner` and
  `fourier_adder` are kept as a function of the qubit; an invariant says that circuit plus pending phases is the textbook
  circuit. Not modelled: `use_gms`, `inpl_adder`.
* C72, C73: `U` is an operator on amplitude functions that commutes with every function of the register;
  `control` applies it where the control is 1. A measurement is a projection.
* C74, C75: the state function is any circuit of H, CX, SWAP and (multi-controlled) phases on the register; `mcx`/`mcp`
  with control state 0 are used by specification. The oracle multiplies amplitudes by ±1.

* C76–C78: floating point coefficients are exact rationals; `np.round` rounds halves to even; like terms of a polynomial are
  not collected (sympy collects them; the operator is the same as all of them are diagonal). The phase tolerant
  multi-controlled X is any permutation with non-zero phase factors followed by its inverse. Not modelled: `hybrid_mult`,
  `use_gms`.
* C83: the rotation of the register is the model of `cyclic_shift` (C79); a signed float without mantissa (an exception)
  and the factor 0 (endless loop) are `none`.
* C84, C85: static mode. The gate of `less_than_gate` is its list of operations; duplicates of the operands are the operands.
  The labels of a float are exact rationals. `equal` consists of CX and multi-controlled X gates on basis states; an
  exception in the body of a classical control whose condition is false is dropped, as in `ClControlEnvironment.__exit__`.
* C86, C87: the TR gate is the inverse of its list of gates, with angles in turns; it is shown to act on basis states as
  Toffoli and CNOT, and circuits of such gates are then followed on basis states. Ancillas are a list of qubits in state 0.
* C88: static mode, adder `thapliyal`, `log_output` off. The loop keeps the integer remainder up to a conditional complement;
  the decrement of the quotient is the model of C15. Not modelled: `q_div`, `qf_inversion`.
* C79–C82: an iterable is a list of distinct positions; element swaps are one step. Controlled swaps are swaps or nothing,
  depending on the value of the control register; the phases of phase tolerant controls are not modelled.
* C89: branches are functions on an abstract operand; they do not touch the index register. The tree is followed on basis
  states of index and ancillas. Not modelled: tracing mode (there all branches of a list, also the padding, are traced).
* C90: the preparation is any matrix, its inverse the conjugate transpose; without `oaa_iter`.
* C91–C93: amplitudes over ℂ, exact angles. The controlled `ry` of C93 is one controlled operation (its synthesis is C46/C66).
* C94: the binary tree of sub-vectors is followed with an invariant (entry of the array = weight · phase · entry of the
  sub-vector); exact arithmetic, `q_switch` is selection by the index (C89). Entries between 0 and the threshold are excluded.
* C95: the circuit is followed on amplitude functions: basis-state permutations with phases (CNOT, temporary logical AND with any
  unit phases) conjugate a diagonal gate. The compute part is undone by its inverse.
* C96: `gmatL` is the matrix of the gates (tensor products for the single-qubit layer, a permutation for the CNOT gates); the first
  loop keeps the matrix as a tensor product of the chosen bases, the second conjugates `T + T†`. Only the default method.
* C97: groups from the model of `group_up`; each group is conjugated (C96) around the diagonal simulation (C95), which gives
  `exp` of the group by `exp(U A U⁻¹) = U exp(A) U⁻¹`. The limit is the Lie product formula, proved for Banach algebras.
  Not modelled: `method="commuting"`, symbolic parameters, tracing mode (see C95), controlled evolution.
* C99: two factors, for winner and other states, follow a linear recurrence (Cayley-Hamilton), solved by cosines; the number of
  winner states is a sum over the register. `mcp`/`mcz` by specification, floating point numbers are exact.
* C100–C103: a block encoding is a unitary matrix on `anc × n` with a distinguished ancilla value; the operations of the mixin are
  products of controlled and padded matrices. Expressions by structural induction. The reflection, the controls and the state
  preparation (`prep`, by `ry`) are their matrices; the loop of `chebyshev` is a power. Real scalars only; floats are exact.
* C104: arrays of coefficients are functions of which the values up to the degree count. Layer stripping keeps |a|² + |b|² = 1 on the
  circle and lowers the degree; the circuit is followed layer by layer for the two values of the signal ancilla. The FFT-based
  completion and the maximum are parameters (hypothesis `Completes`); floats are exact. That completions exist for every real polynomial
  is proved in Props/Completion.lean (Fejér–Riesz theorem with real coefficients, Blk/Fejer.lean).
* C105: the triangular matrix of the code, `linalg.solve` as its inverse.
* C106–C108: polynomials of the encoded matrix are Mathlib's `aeval`. The completion and the maximum are parameters as in C104. QET is
  reduced to GQSP of the squared walk (every second layer of a polynomial of one parity is trivial). For C107 the theorem is about
  the truncated series with the numerically integrated Bessel functions; its distance to exp(-iHt) is not proved.
* C109, C110: the circuit of alternating U, U† and projector phases is compared with GQSP of the qubitized Hermitian dilation, whose
  blocks between the two values of the dilation ancilla are functions of A†A and AA†. Coefficients of the other parity are ignored.
* C111, C112: `binom.sf` is the tail sum of the binomial distribution, parameters are exact reals, `int` is the floor. The error bound is in
  Mathlib's operator norm, by diagonalizing AA†. The polynomial of `_pseudo_inversion_cheb` is a parameter.
* C113: the case register is a function from positions to bits, gates on it are matrices, the selection is one matrix per value. Angles
  are options: 0/0 is NaN (`none`), which stays. Chebyshev polynomials of the block as in C103.
* C114, C115: `from_lcu` takes the state preparation as a parameter (any map with the property of C94); the unitaries are matrices on the
  operands alone. Square roots are principal complex roots. `from_projector` takes preparations as matrices and flips the ancilla on the operand
  value 0; `from_eye` uses the classical maps of the subtraction modulo 2^w and the comparison. Offsets of absolute value 2^w or more are not modelled.
* C116: the operator arithmetic is that of C49 with complex coefficients and the threshold test as a parameter. Python number types are one
  type (`to_pauli` returns a bare number for a complex multiple of the identity, after which `unitaries` raises; not modelled). The factors
  `(X + iY)/2` etc. of `to_pauli` are literal dictionaries. `from_matrix` accepts dense arrays and `csr_matrix` only (`csr_array` raises, though
  `from_array` documents it).
* C117–C120: QAOA gates act on amplitudes over all basis states (`Qaoa/Basic.lean`); `rzz` and `xxyy` are their definitions in
  `standard_operations.py`. Quantum conditions (the `QuantumBool` of a mixer predicate) are computed, used as a control and uncomputed, so a
  controlled rotation is conditioned on the classical value of the predicate. Collecting terms in sympy is a parameter that keeps values.
  Optimisation (scipy) and sampling are not modelled: theorems are for all angles and all distributions.
* C98: colourings as functions to `Option Nat`; vertices are numbers, the adjacency matrix a Boolean function.
* C121: the venting adder acts on a basis state with a sign; a vent (X-basis measurement with reset) multiplies by `(-1)^(m·bit)` for
  the outcome `m` and clears the qubit. All outcomes are universally quantified. Registers with fewer than six qubits take the path of
  `gidney_adder` (C14). Not modelled: the wrap-around of the 64-bit masks for registers with more than about 126 qubits.
* C122: the graph part (Comp/Fuse.lean) is proved for any sound fusion rule and any interpretation in which instructions on disjoint bits commute: an invariant ties `qubit_dic`, `clbit_dic` and `edge_dic` to the living nodes (last node per bit). The rules (Circ/FuseMat, FuseOps) are matrix identities; `_fuse_via_transpile` calls the pass again and is modelled with a bound on the depth (FusePass.lean), proved for every bound. Not modelled and passed as parameters with conditions (`Cfg.OK`): the transpiler, the comparison of unitaries (idealised to equality), the topological sort. `GidneyLogicalAND`, unbound parameters and composite operations with measurements inside are left alone by the model. `params[0]` of an rzz gate is read off its definition.
* C123: the higher-radix carry-lookahead adders (Rev/Qcla*.lean). The Brent-Kung tree is modelled gate by gate (`tree`), gates with a fresh control are skipped (`emit`, `fresh`), the automatic uncomputation is the reversed list of the gates on the local qubits (`uncompute`; a condition `Unc` shows that this undoes them), the copies of the control are kept until the end instead of being uncomputed early and recomputed. Sum path with direct uncomputation: the invariant `Done` says that after the blocks `n, …` the carries above are gone; without: the blocks in ascending order (`Up`), then Draper's identity for the reversed carry path. The block adders are those of C01 and C66. Not modelled: radix 1 with a quantum addend (its carries are uncomputed automatically), the deletion of padding variables (`verify_manual_uncomputations` is undefined in qq_sum_path.py, so the NameError is caught and the padding variable is never deleted).
* C124: truth-table synthesis (Circ/Logic.lean, Circ/LogicPprm.lean) and quantum dictionaries (Types/QDict.lean). The gray synthesis of one output qubit is H, the phase circuit of C46, H (`h_diag_h`); with several outputs the phase tolerant circuits leave a phase per column (`rowSum`), corrected by a second phase circuit. Reed-Muller: the polynomial over GF(2) is the list of monomials (bit masks) of the code's symbolic expansion; the order in which sympy lists them is a parameter, any permutation is allowed. `lin_solve` and `method="best"` are not modelled. Dictionary labels are atoms or tuples (`PyVal`); the labels of unused states of `custom_qv` are fresh atoms.
* C125: automatic uncomputation (Comp/Unqomp*.lean), on the graph of C57. Unqomp.lean models `uncompute_node`, the loop over
  the reversed topological order, `detect_double_alloc`, the cut of the circuit and the repeated attempts; the order of
  `list(set(a_star))` and the topological order are parameters. UnqompInv.lean proves the invariant of the extended graph (every
  topological order of it puts each inverse after all uses of the value and before any change of its controls),
  UnqompOrder.lean translates it into an order of tagged gates, UnqompSem.lean shows by amplitudes that such an order returns
  the qubits, with the specification `cleaned` (the state of the other qubits is kept, the values of the uncomputed qubits are summed over).
  Hypotheses: the permeability labels are those of the matrices (C58), uncomputed gates are permutation matrices up to
  phases, a qubit is allocated before its first use, and no edge carries two types (`NoMix`, not true in general, see Findings).
  Not modelled: `recompute_qubits`, gates conditioned on clbits, the value layers (only used to order nodes).
* C126: nested `control`, condition, `invert` and `conjugate` environments in static mode (Env/*.lean). Control.lean models the three `compile`
  methods as one recursion over a program tree: truth value qubits, content operations controlled on them, operations of children
  appended as they are, `inversion_tracker`, inversion of compiled content. Operators act on amplitude functions of
  infinitely many qubits (Sem.lean); gates are arbitrary invertible operators that act locally. The specification `sem` has no
  ancillas: every operation happens where the conditions of all its environments hold. Main.lean proves that
  the circuit equals it on clean ancillas, by moving the computation of the truth value past the body. Restrictions (`WF`) beyond
  what a user can write (`C126_user`) are those of the findings; conjugations consist of gates only. In a nested environment the
  body of a conjugation is controlled on the truth value and on the control qubit; the proof carries the invariant that
  the truth value implies the control qubit. In addition conditions in `invert` inside of an environment are
  excluded (there the evaluation is controlled as well, which is not wrong but not covered by the proof).

* C127–C130 (`Verif/Sim`): the meaning of a circuit is the multiset of branches `exec` (Sem.lean), gates are arbitrary operators that
  act on their qubits. Group.lean models `group_qc` with its integer masks (both versions, below and from 63 qubits); the proof shows
  that a block on a set of qubits can be moved to the front, and that established indices of smaller sets are found again. Reorder.lean
  models the graph traversal; the topological order of networkx is a parameter with the property that edges go forward. Multi.lean
  models the deferred measurements; the permeability check is a parameter `pm` that may answer true only for gates that commute with
  the qubit. The invariant of the loop (MultiLoop.lean) is a list of pending operations (measure, measure-and-clear, clear) at the end of the
  circuit, equality is up to branches with amplitude zero. Pipeline.lean composes the steps. Simplified: gains are exact numbers instead of
  floats; instructions have distinct qubits and classical bits; the control state has one digit per classical bit; disentanglers
  are the identity; `transpile`, rounding of the probabilities, the bit strings, tensor factors and `insert_disentangling` (more than 45
  qubits) are not modelled.

* C131–C133 (`Verif/Jasp`): a program is a list of equations (Prog.lean) with nested programs for `jit`, `while` and `cond`; its meaning is
  the trace of operations on run-time qubits. Invert.lean models `invert_jaspr` with the three groups of equations and `invert_loop_eqn`; the proof
  shows that classical equations can be executed first (single assignment) and that the index of an inverted loop runs
  backwards. Control.lean models `control_eqn`/`control_jaspr` and `exec_multi_controlled_jaspr`; the specification `runC` executes
  a trace with control qubits in classical states. Simplified: the variable of the abstract quantum state is left out; new qubits are
  named by their place in the execution; loops are executed with a bound on the number of iterations; user-defined inverse or controlled
  versions and the caches are not modelled; environments are already flattened.
* C134–C136 (`Verif/Jasp/Metric*.lean`): the profiling interpreter is one evaluator (`eval`) over a set of handlers (`Interp`); the three
  metrics and the execution on real qubits (`exact`, which records events) are instances. `eval_sim` (MetricSim.lean): a
  relation kept by every handler is kept by every program; the theorems are instances of it. The depth is specified by chains of
  gates that share qubits, the peak by prefixes of the events. Simplified: integers are unbounded; the condition of a loop is a
  function of the carried numbers; a measurement behaviour is a function of the number of the key; the transpiled definition of a
  gate is a parameter; `parity` and kernels of `boolean_simulation` are not modelled.
* C137 (`Verif/Jasp/Boolean*.lean`): the handlers of `cl_func_interpreter.py` are another instance of `Interp`: words of 64 bits, `Jlist`s of
  places (Types/JList.lean) and the `Jlist` of free places. The specification `boolX` executes the program on basis states with a
  fresh name for every created qubit. `eval_wsim` generalises `eval_sim` to relations that depend on growing knowledge, here the
  places of the named qubits; the invariant `Mem` says that free places and places of live qubits are a permutation of all
  places and that free bits are 0. Simplified: measured numbers are unbounded; a single measured qubit is a number; `parity`, kernels
  and callbacks are not modelled.

* C138 (`Verif/Jasp/Jrange*.lean`): Python statements on names are traced (`traceG`) into equations on variables; `collect_environments` and
  `iteration_env_evaluator` are modelled on these, with the marker, the moved inputs, the comparison of the two iterations and the
  update rules. The specification executes the statements for every index (`pyFor`). Tracing is parametric in the variables, so both
  iterations are renamings of one abstract trace. Simplified: bodies are straight-line (nested loops and environments are single
  equations); the order of outputs is that of production instead of a Python set; integers are unbounded.
* C139: `Verif/Sess/Model.lean` models `merge_sessions_inner`, `resolve_naming_collisions`, `multi_session_merge`, `append`,
  `register_qv`, `delete_qv`, `duplicate` without environments; `record` writes down the instructions in the given order and the pairs of
  sessions that meet. Invariant (`Inv`): the roots are the classes of linked sessions, the circuit of a root is the restricted record
  up to exchanging independent neighbours (`Commutes`), names in a root differ.
* C140 (`Verif/Tens/Index.lean`, `Array.lean`, `Lazy.lean`, `Eager.lean`): arrays with power-of-two axes are the stored data, the shape (as
  numbers of bits) and the list of permuted index bits. `permute_axes` (runs of neighbouring bits shifted together), the merge loop of the
  dense `apply_swaps` and `np.moveaxis` are modelled; the meaning of an array is a function of index bits (`val`). The specification
  (`Np`) moves the entries at once. Not modelled: threads, the sparsity estimates, axes that are negative.
* C141 (`Verif/Tens/Mul.lean`, `Contract.lean`): coordinates, sorting, runs with equal rows and the inner products of the own sparse product;
  scipy and `np.matmul` are taken as exact matrix products. The estimates that choose the representation are an arbitrary choice. Numbers
  are elements of a commutative ring, so the cutoffs for small numbers are tests for zero.
* C142–C144 (`Verif/Tens/Factor.lean`, `Measure.lean`, `Outcome.lean`, `Disent.lean`, `State.lean`, `Steps.lean`, `Readout.lean`, `Many.lean`,
  `Run.lean`): factor objects live on a heap, `tensor_factors` is a list of references; methods change objects in place as in the code. Invariant
  (`Inv`): a qubit refers to an object that lists it, all qubits of an object refer to it, objects have norm one. The meaning of a state is the
  product of the amplitudes of its objects (`psi`). The specification (`stepI`, `Ideal.born`) works on functions from the values of all
  qubits to numbers. The order of Python sets, the sparsity estimates and the random numbers are arbitrary. Numbers are elements of a
  field with conjugation and square roots of norms (`Root`, proved for complex numbers). Simplified: thresholds (`float_thresh`, `1e-7`) are
  exact comparisons, `abs` of numbers that are norms is left out, object arrays (symbolic amplitudes) and warnings are not modelled, an array
  without non-zero entries has no outcomes.
* C145–C147 (`Verif/Jasp/Extract.lean`, `ExtractBase.lean`, `ExtractPost.lean`, `ExtractQc.lean`, `ExtractSim.lean`, `ExtractEval.lean`): a program is a
  list of equations with calls, loops and branches; `eval` is `eval_jaxpr` for any interpretation (`Mach`). Execution (`execM`) is the
  specification: events on qubits, outcomes given by a function. Post-processing (`postM`) has sizes instead of arrays and a pointer into the
  bits. The construction of circuits (`extM`) has bits, lists of bits, parity handles and `ProcessedMeasurement`s, and turns
  branches on bits into conditional operations; `runL` runs a circuit. Flags note what the code treats wrongly, they have no influence.
  Not modelled: `scan`, arrays of classical values, qubits as arguments, widths of integers.
* C148–C150 (`Verif/Iqae/Model.lean`, `Table.lean`, `Run.lean`, `Budget.lean`, `Prob.lean`, `Coin.lean`): `IQAE` with real numbers instead of floating point
  numbers and natural numbers instead of 64-bit ones. For C148 and C149 the shares of the shots are any sequence in [0, 1]; for C150 `prun` draws them, with a
  distribution that is the mean of N independent shots of expectation sin²(K t) (`IsMean`). That the amplified state has this
  probability is `iqae_step`, from the model of `amplitude_amplification` (C75). `fuel` bounds the rounds of the loop; the theorems say how much suffices.
* C151–C152 (`Verif/Samp/Model.lean`, `Lemmas.lean`): the shots are given as indices into the outcomes of the measurement of all returned variables (their
  distribution is C143); dictionaries are lists of pairs with Python's semantics of assignment. Specification: the loop over the shots. Simplified: the
  array is compared before it is shuffled, numbers are rational, keys of the dictionary are elements of a linear order (numbers or
  tuples of numbers). Not modelled: the evaluation of the user function itself (it is run once, so programs whose state depends on
  measurements are excluded by the documentation of `terminal_sampling`).
* C153–C154 (`Verif/Circ/Prx.lean`, `Phases.lean`): circuits of unitary operations and classically controlled ones, with given values of the
  classical bits; measurements are not part of these circuits. Simplified: angles are exact reals and "closer than 1e-5" is "equal"; no
  symbolic angles. `gray_synth_toffoli` keeps the Toffoli gate and changes its definition; the model is the circuit after these gates are
  replaced by their definitions.
* C155–C157 (`Verif/Qiro`): the replacement routines, `find_max`, the initial state and the controlled mixer. The measurement results of
  each round are arbitrary lists of bit strings with rational weights, so nothing is assumed about the optimiser. The mixer is modelled by
  the bit strings to which it can move an amplitude, not by amplitudes; the cost operators are diagonal and not modelled. Lists of clauses do
  not share clause objects.
* C158 (`Verif/Fourier/QAE.lean`): `QAE` and `quantum_counting` are compositions of the models of `QPE`, `amplitude_amplification` and
  `diffuser`. Probabilities are sums of squared amplitudes over the argument qubits (and the result qubits). Real arithmetic; the oracle is a
  diagonal sign. `quantum_counting` outside of tracing mode takes the first key of `get_measurement`; modelled as any most likely result.
* C159 (`Verif/Fourier/QMCI.lean`): `QMCI` with unsigned registers. The integrand is a function on real numbers and the comparison
  `y < f(x)` is exact; how quantum floats compute and compare is the subject of C76–C88. Not modelled: the error probability of `IQAE`
  (C150), signed registers.
* C160 (`Verif/Oper/FermOp.lean`): `FermionicOperator` as a list of (ladder list, coefficient) in insertion order over any commutative ring with a map
  to ℂ; keys are compared as lists (no hash collisions). `reduce` gets the test for deleted zeros as a parameter, since complex zeros stay. The
  in-place operators, printing, `from_pyscf` and expectation values are not modelled.
* C161 (`Verif/Oper/FermSwap.lean`, `FermMatch.lean`, `FermGroup.lean`, `FermPerm.lean`): the matching part of `fermionic_trotterization` for one
  group of terms (trotterization.py lines 74-111) and `apply_fermionic_swap`. `n` is the number of modes of the group and the qubits are 0..n-1;
  further qubits are not touched. `conjSwaps` is the specification of the conjugation: gates CZ as signs of basis states, the operator on the relabelled
  qubits, the gates again. How the groups come about is C98; `simulate` of the qubit terms is C97.
* C162 (`Verif/Ctl/QRange.lean`): `qRange` on basis states. The index register is a number modulo `2^(n+1)`, the rest of the system an arbitrary type, the
  body an arbitrary function that does not touch the index. In-place addition of a number is addition modulo the size of the register (C76). The
  control environment, `perm_lock` and leaving the loop with `break` are not modelled.
* C163 (`Verif/Types/Rounding.lean`): `q_floor`, `q_ceil`, `q_round`, `q_fractional`, `q_modf` on basis states outside of tracing mode, with Python
  indices. `b += 1` and `b -= c` are exact modulo the register (C76–C78). The controlled and inverted calls inside `q_fractional` are taken as the
  functions they invert.
* C164 (`Verif/Types/MaxMin.lean`): `q_max` and `q_min` slice by slice; the comparison is exact (C83–C88) and uncomputed by the conjugation. Shapes with a gap
  between the mantissas are left out: there the slices have negative bounds.
* C165 (`Verif/Opt/Qubo.lean`): the tables of `qubo_problems.py` as integers (hundredths), `QUBO_cost`, `success_prob`, `approx_ratio`. Floating-point rounding
  is left out. Each table is checked over all bit strings by the kernel and lifted by `mem_allBits`.
* C166 (`Verif/Tree/Backtrack.lean`): construction of trees, subtrees and copies, `init_node`, `path_decoder`, `init_phi`, and the phases of `qstep_diffuser` (with the lift) on basis
  states. `psi_prep`, `estimate_phase` and `subspace_optimization` are not modelled; accept and reject are arbitrary functions of the node state.
* C167 (`Verif/Tree/FindSol.lean`): `find_solution` with the shared list of traversed nodes; the phase estimation is a parameter. The recursion has fuel; `search_complete` shows that
  depth + 1 is enough if the measurements are faithful (hypothesis `Faithful`, not proved of the quantum part).
* C168 (`Verif/Iface/Stim.lean`): `qrisp_to_stim` on the transpiled circuit: gates as table entries, measurement, reset and classical control on one qubit, detectors and observables.
  The effect of gates and measurements on the quantum state is arbitrary. Noise gates are not modelled.
* C169 (`Verif/Iface/Jobs.lean`): calls of `QiskitJob`, `IQMJob` and `AQTJob` one after the other; every call carries the answer of the remote side, including failures while the
  counts are read. Threads, waiting times and the conversion of the counts are not modelled.

## Findings: where the code does not have the intended property

Each finding is proved as a theorem about the model (negation with a concrete witness); the property is
kept with a guard (`_partial`).

| Property | Finding | Theorem |
|---|---|---|
| C07 | Knuth division: `rhat << 32` wraps in uint64, quotient wrong for some operands | `C07_division_wrong` |
| C10 | Montgomery encoding does not round-trip for even moduli | `C10_even_modulus_fails` |
| C14 | traced classical addend wider than the register flips c_out | remark next to C14 |
| C15 | `lin_incr` with `c_in=None` does nothing | in the C15 theorems |
| C41 | controlled Cuccaro adder changes the carry-out when the control is off | C41 theorems |
| C42 | controlled Gidney adder with a quantum addend introduces relative phases | C42 theorems |
| C43 | in-place modular multiplication: shift chosen for X, not for its inverse; garbage remains | `C43_small_shift_leaves_garbage` |
| C44 | quantum-quantum modular multiplication: result need not be reduced | `C44_not_reduced` |
| C25 | controlled `gphase` uses the control state rotated by one position | `C25_gphase_wrong` |
| C25 | Y with several controls (or control state 0) gives controlled -Y | `C25_multi_y_wrong` |
| C25 | composite gates are recognised as swap by their name | `C25_swap_name_wrong` |
| C46 | phase synthesis: a walk step flips several bits but only one CNOT is emitted | `C46_parity7_wrong` |
| C22 | transpilation uses one dictionary for qubit and clbit identifiers | `C22_name_collision_wrong` |
| C22 | a circuit with clbits but no qubits raises NameError | `C22_no_qubits_fails` |
| C23 | a rejected broadcast call keeps the instructions before the failing one | `C23_broadcast_partial_effect` |
| C23 | two qubit objects with one identifier give an instruction with a repeated qubit | `C23_duplicate_qubit` |
| C23 | unregistered clbit objects are stored | `C23_foreign_clbit` |
| C26 | convert_to_cx/cz look at names only; a gate controlled on 0 has the same name | `C26_ctrl_state_wrong` |
| C28 | commute_swaps moves a measurement behind an operation using its result | `C28_commute_swaps_wrong` |
| C28 | arrange_swaps drops every gate with "alloc" in its name | `C28_arrange_swaps_wrong` |
| C29 | cancel_zero_controls removes cz/cp gates controlled on 0 | `C29_ctrl_state_wrong` |
| C48 | manual_layout twice with gaps: names of the added qubits collide | `C48_second_layout_fails` |
| C35 | sort reports sign 0 when three adjacent ladder operators share the mode, e.g. a(0)c(0)a(0)a(1) | `C35_triple_wrong` |
| C50 | eliminate_ladder_conjugates loses imaginary parts: i A(0) - i C(0) becomes the zero operator | `C50_imaginary_lost` |
| C36 | a backend returning fewer results than circuits leaves placeholders unpopulated without an error | `C36_short_result_lost` |
| C37 | multi_measurement overwrites a probability when the circuit has further clbits or decoders collide | `C37_extra_bit_wrong` |
| C39 | sizes of 54 bits and more: decoding is not injective because of float64 | `C39_large_wrong` |
| C39 | values between grid points are rounded towards zero although the docstring shows an exception | `C39_unrepresentable_accepted` |
| C40 | `clear` is wrapped in jax.jit and does not change the list | `C40_clear_wrong` |
| C40 | slices with start > stop have negative length; start < -len reads wrapped cells | `C40_slice_reversed_wrong`, `C40_slice_start_wrong` |
| C40 | pop on an empty list makes the counter -1; the next append is lost | `C40_pop_empty_wrong` |
| C54 | find_order overwrites `a` by repeated squaring and passes the last value to extract_order: the result need not be an exponent of `a` | `C54_find_order_wrong` |
| C56 | decrypted strings have NUL characters appended for some lengths | `C56_trailing_nul` |
| C57 | classically conditioned operations on two or more qubits raise KeyError in dag_from_qc | `C57_cif` |
| C63 | khattar_mcx with four controls leaves the phase −1 where control 1 is off and exactly one of controls 2, 3 is on | `C63_khattar_four_phase` |
| C65 | mcp with one qubit and method "balauca" applies no phase | `C65_balauca_mcp_one` |
| C68 | the Jones Toffoli circuit is Toffoli times CZ of the controls (`s(3)` instead of `s_dg(3)`) | `C68_jones_not_toffoli` |
| C69 | in tracing mode `QFT` ignores `inplace_mult` and `qiskit_endian` (even multipliers do not raise) | `C69_qft_tracing_mult_negation` |
| C73 | `IQPE` uses powers 2^precision … 2 instead of 2^(precision-1) … 1 and returns the fractional part of 2θ; for the phase 1/2 it returns 0 | `C73_iqpe_negation` |
| C77 | `x += y` with a signed `y` of finer resolution does not extend the sign: 0 += -1 gives 7 for four qubits | `C77_finer_operand_fails` |
| C81 | `demux(permit_mismatching_size=True)` with more outputs than index values moves the input to the wrong output | `C81_more_outputs_fails` |
| C82 | quantum indexing of arrays checks only the total number of index qubits, not the size of each dimension | `C82_shape_unchecked` |
| C83 | `x *= c` on an unsigned float reads the top qubit as a sign: 5 in three qubits times 3 is wrong | `C83_unsigned_fails` |
| C83 | `x *= c` on a signed float, smallest number times a negative power of two: the sign stays negative | `C83_imul_signed_partial` |
| C85 | `==` of signed floats whose signs have different significance: −1 ≠ −1, −1 = −3 | `C85_equal_wrong` |
| C85 | `==` with a float that ends below the other one: a negative slice bound wraps around, 0 = 1 | `C85_equal_wrong` |
| C86 | Thapliyal adder on one qubit each: `out` is flipped by a ∧ ¬b instead of a ∧ b | `C86_one_qubit_wrong` |
| C87 | `inpl_add` of two-qubit unsigned floats: 0 + 1 = 3; one-qubit floats raise an IndexError | `C87_two_qubits_wrong`, `C87_one_qubit_raises` |
| C87 | `inpl_add` of formats without common digits raises (minimum of an empty range) | `C87_disjoint_raises` |
| C87 | `inpl_add` with ignored overflow of a signed target is not addition modulo the range | `C87_signed_overflow_wrong` |
| C88 | `q_divmod` with a numerator that ends below the lowest digit of the divisor: 1 / 4 gives quotient 1, remainder 3 | `C88_short_numerator_wrong` |
| C89 | `q_switch` with an odd list of branches appends to the list of the caller; the second call raises unless there is exactly one operand | `C89_second_call_raises` |
| C90 | `LCU` of a single unitary raises (index register without qubits) | `C90_one_unitary_raises` |
| C95 | in tracing mode the last logical AND of `QubitTerm.simulate` ignores the control state, so terms such as P0(0)P0(1)Z(2) are not simulated | `C95_traced_wrong` |
| C95 | with control, one projector and Z factors the helper variables are not deleted | `C95_leak` |
| C99 | `grovers_alg` with default iterations on two qubits with one winner state runs 2 iterations and succeeds with probability 1/4 (1 iteration would give 1) | `C99_overshoot` |
| C101 | `qubitization` flags the walk operator as Hermitian; qubitizing again undoes the walk | `qubitization_flag_witness` |
| C101 | `qubitization` of a non-Hermitian encoding without ancillas returns it unchanged | `qubitization_no_ancilla_witness` |
| C102 | `chebyshev(1, rescale=False)` keeps alpha: it encodes A, not A/alpha | `chebyshev_one_witness` |
| C104 | `_inlft` starts from conj(q) instead of q: `GQSP` is wrong for complex polynomials such as 1 + i z | `gqsp_complex_witness` |
| C108 | QET takes every second coefficient from the end: an odd polynomial with a trailing zero ([0, 1, 0]) is encoded as 0 | `qet_trailing_witness` |
| C109 | the angles of QSVT for a constant polynomial are shifted by π/4: the constant 1 is not encoded as the identity | `qsvt_constant_witness` |
| C111 | the error bound eps of `inversion` fails for coarse eps (beta rounded down to 1) | `inversion_coarse_witness` |
| C112 | `pseudo_inversion` applies QSVT to A instead of A†: it encodes U f(Σ) V† instead of V f(Σ) U† | `pseudo_inversion_witness` |
| C113 | `CKS` for kappa = 1 and eps ≤ 1/100 (whenever j0 > beta): the last two coefficients are 0, `arctan(0/0)` makes all angles NaN | `cks_nan_witness` |
| C114 | `from_lcu([-1], [U])` has alpha = -1, a negative normalisation | `from_lcu_negative_witness` |
| C114 | `from_lcu` documents: set is_hermitian if all unitaries are Hermitian. With coefficients [1, -1] and Hermitian unitaries the block-encoding unitary is i X, not Hermitian, so qubitization takes the wrong branch | `from_lcu_flag_witness` |
| C118 | MaxCut while tracing truncates outcomes to 32 bits: the cut edge (0, 32) has cost 0; outside tracing an exception is raised | `C118_maxcut_limit` |
| C118 | the cost of set cover adds `len(sets)` for an infeasible outcome without weighting it with its probability (minSetCover.py:87) | `C118_cover_fails` |
| C119 | the mixer of set cover leaves the covers if an element lies in one set only: `mcx` without controls does nothing, so the element counts as covered by others | `C119_cover_fails` |
| C120 | portfolio: `1 - old_val ^ 2 - old_val` is an exclusive or in Python, and the variance terms are `rz` gates: outcomes of equal cost get different phases | `C120_portfolio_fails` |
| C121 | venting adder under a control at 0 without carry in: `carry_xor_block` computes its first carry without the control (gidney_venting_adder.py, branch `c_in is None`), so basis states get wrong signs | `C121_control_fails` |
| C121 | `c_out` of the venting adder on six or more qubits receives the carry into bit n-2 instead of the carry out | `C121_carry_out_fails`, `C121_carry_out_value` |
| C122 | fuse_adjacents recognises gates by name: `swap` followed by a NOT controlled on 0 (also called `cx`) is replaced by the two CX gates for the ordinary CX; cz and cp controlled on 0 are treated as symmetric | `C122_ctrl_state_wrong` |
| C122 | the generic inverse check accepts unitaries at distance 1e-4: two equal rotations by 1e-5 cancel, and so do arbitrarily many pairs in a row | `C122_tolerance_wrong` |
| C123 | `qcla` with `t_depth_reduction=False`: a quantum addend that does not reach the last block raises an IndexError (`c[j]`, qq_sum_path.py:72-74) | `C123_index_error` |
| C123 | `qcla` with `t_depth_reduction=False` and a classical addend whose lowest block is zero: the incrementor of block 0 takes `c[-1]`, the last carry, as carry in (cq_sum_path.py:57-60); 4 + 12 = 17 on six qubits | `C123_zero_block` |
| C123 | the same with radix 1: `x(b)` flips the whole register for every one of the addend and ignores the control (cq_sum_path.py:44-47) | `C123_radix_one` |
| C123 | with mid-circuit measurements the carries left by the tree carry CZ signs of the jones Toffoli gates; the direct uncomputation by block adders does not cancel them | `C123_jones_sign` |
| C124 | `q_synth(method="gray")` with one output: the parity of three bits flips an input qubit (walk bug of C46) | `C124_gray_parity_wrong` |
| C124 | `q_synth(method="gray")` with two or more outputs: the residual phases are removed for the bit-reversed input, a relative phase `π/2 (s(x̃) - s(x))` remains (gray_synthesis.py:561-585) | `C124_gray_phase_wrong` |
| C124 | `q_synth(method="gray_pt")` with one output is synthesised exactly, the flag is not passed on (gray_synthesis.py:558); `flip_bit_order` in gray_synth_qc has no effect (harmless) | - |
| C124 | `QuantumDictionary` with a single key variable whose labels are tuples: `k[i]` takes the entry of the label, the encoder raises or a wrong row is filled (quantum_dictionary.py:240-243) | `C124_dict_tuple_label` |
| C125 | `uncompute_qc` silently leaves garbage: `cx(a, x); cx(x, a)`, uncompute `a`. `add_edge` keeps the type Z of the existing edge when the qubit `a` of type X is added, so `get_target_qubits` finds no target and the second gate is not uncomputed; `a` is deallocated with the value of `x` (permeability_dag.py:226-232, 252-262) | `C125_mixed`, `C125_mixed_circuit` |
| C125 | `list(set(a_star))` (unqomp.py) is ordered by addresses in memory: the same circuit is uncomputed in one run and raises in another | `C125_order` |
| C126 | nested `control(b, invert=True)` inside of `control(a)`: the truth value is a∧b and the content is executed where it is 0, so also where a is 0 (control_environment.py:196-224, 303-316) | `C126_inverted`, `C126_not_full` |
| C126 | flipping the truth value of a nested environment executes the rest of its content where the parent is inactive (control_environment.py:284-289, quantum_conditionals.py:474-479) | `C126_flipped` |
| C126 | a condition environment inside of `control(a, ctrl_state=0)` (one qubit) combines its condition with `a` instead of `not a` (quantum_conditionals.py:403-410): the wrong branch is executed | `C126_condition` |
| C126 | `p(phi, a)` inside of `control(a, ctrl_state=0)` is applied uncontrolled, so to the inactive part (control_environment.py:290-291) | `C126_phase` |
| C126 | `control(a): control(b, ctrl_state=0): conjugate(U)(): V`: the body V is never executed. The inner control of the conjugation keeps the qubit `b` (state 1) because `retarget_instructions` does not retarget control qubits of environments, while the truth value is a∧¬b (conjugation_environment.py:216-229, custom_control_environment.py:192-231, utility.py:1348-1361, control_environment.py:182-194) | `C126_conjugation` |
| C126 | `rz` on the truth value is applied uncontrolled and changes the phase of the inactive part (control_environment.py:292-293) | `C126_rz` |
| C116 | `from_array` of a nonzero matrix with all entries below 1e-9 silently encodes 0, with alpha = 0 | `from_array_small_witness` |
| C108 | QET decides parity by an absolute threshold: a constant 1e-7 is treated as odd | `qet_small_witness` |

C127 (`sim_group_condition_lost`): `binary_get_circuit_block` intersects sets of qubits with the negated integer of a non-unitary
instruction, i.e. with its two's complement. For a conditional gate on several qubits this misses qubits (all but the lowest ones):
X(2); conditional CX(2,1); X(2) is simulated with both X gates before the conditional gate.

C129 (`sim_reset_lost`): a reset followed only by permeable instructions, a measurement included, is dropped: X; reset; measure gives 1.
(`sim_reset_early`): a measurement and a later reset of the same qubit are executed together, before permeable gates between them: X(0); measure(0);
CX(0,1); reset(0); measure(1) gives 0 for qubit 1. (`sim_clbit_twice`): two measurements into the same classical bit are both in the final
measurement, the result has a digit too many. The condition of line 755 excludes conditional operations by a check on the instruction
instead of its operation and never applies.

C131 (`jasp_invert_carry`): `invert_loop_eqn` accepts `jrange` loops that carry values besides the index; they run forward
in the inverse, the result is a wrong circuit without an error. (`jasp_invert_reset`): a reset is moved to the front of the inverse instead of
being rejected like a measurement. (`jasp_invert_result`): a classical result of a quantum call that is used later makes the inverse read an
undefined variable.

C132 (`jasp_control_reset`): `control_jaspr` wants to reject measurements but compares with the name `measure` instead of
`jasp.measure`; measurements and resets are executed even if the control is inactive.

C134–C136 (`metric_loop_never_ends`): `num_qubits` and `depth` number measurements by an entry of the `context_dic`, which is new in every
call, branch and iteration, so all iterations of a loop have the same outcomes; a repeat-until-success loop never
ends, in `count_ops` (global counter) it does. (`metric_slice_wrong`): `count_ops` and `num_qubits` give slices with
negative or decreasing bounds a wrong, even negative, size. (`metric_fuse_error`): appending a single qubit to an array is an
error in both. (`metric_depth_negative_index`): in `depth` the index -1 of an array of dynamic size is the last entry
of the table of `max_qubits` entries, another qubit.

C137 (`boolean_size`, `boolean_truncated`): a variable with more than `bit_array_padding/64` qubits is cut without an error, gates on the missing
qubits act on the last one. (`boolean_reset_array`): `reset` of a variable resets the places from its first entry to the
sum of its first two entries: its own qubits partly stay, qubits of other variables are reset. (`boolean_slice_negative`): a slice with
decreasing bounds has a negative size. (`boolean_aliased`): more qubits than `bit_array_padding` share places.
(`boolean_rejects_cp`): controlled phases other than `z` are rejected. By reading: the result of measuring one qubit is an unsigned
integer, for which `~` is not the negation; `parity` of a single measurement reads a second argument.

C138 (`jrange_swap`, `jrange_rule_none`): a number that gets the value another number had before the iteration (`a, b = b, a + b`) is never updated, without an
error. (`jrange_gate`, `jrange_verify_params`): the comparison of the two iterations looks at the names of primitives; all gates are
one primitive, so a body that applies another gate in the second iteration is accepted and the first gate is repeated. (`jrange_start`,
`jrange_merge`): bodies that use the start of the range, if it is the variable of the index itself, or give two names the same value are
rejected although they are the same in all iterations.

C139 (`session_user_name`): if a variable named `x*` was created before a variable named `x`, and the session of the latter receives the
former (it has at least as many instructions), the name given by the user is changed to `x_1`; with the sessions exchanged it is kept
(session_merging_tools.py:241-243 test the wrong variable). (`session_duplicate`): `duplicate(name="y*")` clears `user_given_name` of the original
instead of the duplicate (quantum_variable.py:544-545).

C133 (`jasp_ctrl_state`, `jasp_ctrl_state_differ`): an integer control state is read with the highest bit first by `Jaspr.control`, with the lowest
bit first by `ControlEnvironment` and `Operation.control`.

C145 (`extract_slice_wrong`): post-processing takes `stop - start` as the size of a slice (post_processing_interpreter.py:216-224), so `qv[:-1]` or a
stop beyond the end misreads all following results. (`extract_fuse_error`): a single qubit that is fused is `None` plus a number.
(`extract_const_wrong`): the constants of a called program are passed after its arguments, but bound before (line 282; also
jaspr_to_gate_interpreter.py:70).

C146 (`extract_gate_dropped`): a gate with a parameter computed from a measurement is left out of the circuit without an error, if it stands in a
branch on a measured bit (qc_extraction_interpreter.py:967-995, jaspr_to_gate_interpreter.py:95). (`extract_while_wrong`): a loop whose condition
is a measured bit itself takes the `Clbit` object for true (control_flow_interpretation.py:97-106) and never ends. (`extract_parity_wrong`): the parity of
a parity forgets the inner expectation; known true inputs are ignored (lines 737-746). By reading: inside of a branch the parity is
appended to the outermost circuit; a list of bits that is converted to a truth value stays a list.

C147 (`extract_nested_wrong`): a bit measured in a branch is appended at the end of `clbits`, other bits at the front (jaspr_to_gate_interpreter.py:80,
measurement_primitive.py:68), so post-processing reads the wrong bits; the bits of a branch that is not taken are never skipped.

C152 (`sampling_array_wrong`, `sampling_dict_wrong`): terminal sampling sets `sampling_res[key] = v` instead of adding (terminal_sampling_interpreter.py:286, 297,
304, 313), so outcomes with the same processed value overwrite each other: `sample(f, 10, post_processor=lambda x: x // 2)` returns
fewer than 10 samples. (`sampling_post_wrong`): `sample` outside of a traced program calls `terminal_sampling(state_prep, shots)` and
forgets the post-processor (sampling.py:286). (`sampling_no_shots`): with 0 shots arrays and means have no result. By reading: the
rounding of probabilities (lines 222-230) is never reached, because the number of shots is 0 instead of `None`.

C153 (`prx_x_wrong`): `convert_to_prx` computes the phase with the rotation that it then drops (convert_to_prx.py:136-149); rotations by 2π
are the negative identity, so the circuit X becomes -X (also Y, and every gate with θ = π and λ + φ ≠ 0). The unitary is claimed to match exactly.
(`prx_controlled_error`): a classically controlled gate with λ = -φ is appended without its classical bits (line 126), which raises a ValueError.

C154 (`collect_lost`): `_collect_gphases` drops the phase of a circuit that has only global phase gates (decompose.py:54).

C155 (`qiro_mis_negative_pair_wrong`): the neighbours of the first node of a negative pair are intersected with themselves instead of those of the
second (qiroMaxIndepSet.py:89), so an optimal set on which all results agree is excluded. By reading: `copy.copy(graph)` (line 64) shares the adjacency
dictionaries, so the graph of the caller is changed as well.

C156 (`qiro_clique_positive_pair_wrong`): the same intersection in qiroMaxClique.py:83; after two rounds the solution is not a clique.
(`qiro_clique_zero_pair_wrong`): pairs that are 0 in all results have a positive correlation too and are put into the solution.
(`qiro_clique_repeats_wrong`): pairs in the solution are not skipped by `find_max` (qiro_utils.py:45-57), are chosen again in every round, and the gates X of
`qiro_init_function` cancel.

C157 (`qiro_sat_skipped_wrong`): a clause is removed from the list during the loop over it (qiroMaxSat.py:80, 93), so the next clause is skipped.
(`qiro_sat_init_wrong`): solutions are numbered from 1, qubits from 0, and a solution is appended once for each clause; the wrong qubit is fixed, its
value depends on the parity of the number of clauses, or an IndexError is raised. (`qiro_sat_find_wrong`): `find_max` compares the two numberings.

By reading (IQAE): `check_for_tracing_mode` is used without a call (iterative_qae.py:119, 241, 274), so the test is always true and `jax.numpy` is always
used; `mes_kwargs["shots"] = …` changes the dictionary of the caller, or the default argument (line 218).

Found by reading, not (yet) modelled: multiplication of a block encoding with a complex scalar encodes |c| A; `0*A + 0*B` divides
by 0; `from_lcu` of one unitary with a negative coefficient has a negative alpha, later sums take the square root of it; `QubitTerm.__pow__` with even exponent builds a term keyed by `()`;
`change_of_basis(method="commuting")` line 1237 indexes the signs with the permutation instead of its inverse;
`sx_dg` (core/gate_application_functions.py:1030) appends `SXDGGate().inverse()`, i.e. SX (C96 models it so; the basis change is right
because of it); `trotterization(method="commuting")` uses `com_group` instead of `qw_group` inside the loop over `qw_groups`;
`H -= H` changes the dictionary while iterating over it; `FermionicOperator.__imul__` returns None;
in tracing mode `mcx(method="gidney")` ignores the control state and `mcx(method="maslov")` uses an undefined name
(gate_application_functions.py:546-551); `mcz`/`mcp` in tracing mode read a control string with `int(s, 2)`, i.e. in the opposite
order to static mode (lines 709, 792).

C159 (`qmci_twice_wrong`): `QMCI` appends its target to the list which the caller passes (qmci.py:100). In a second call with the same list
the target of the first call has no attribute `exponent`, and the call fails.

C160 (`ferm_reduce_hermitian_wrong`): `reduce(assume_hermitian=True)` merges a term with its adjoint without conjugating the coefficient
(fermionic_operator.py:148-153). The Hermitian operator `1j*c(0)*a(1) - 1j*c(1)*a(0)` becomes 0; `fermionic_trotterization` starts with this call
(trotterization.py:28), so it simulates the operator 0. (`ferm_eq_wrong`): `==` compares with the adjoint without conjugation (272-278), looks for terms in the
unreduced operator (272) and reads the reduced one (280): `a(0) == c(0)` is True, `c(1)*a(0)` is not equal to itself, a Hermitian operator
can be equal to its negative, and `c(0)*a(1) == a(1) + c(0)*a(1) + a(1)*c(0)` raises KeyError.

C161 (`ferm_match_wrong`): `fermionic_trotterization` appends the single of every odd term (trotterization.py:86-87), so two odd terms on the same modes give the
same single twice, and `kai_pflaume` (139-149) then moves a second mode down as well. With `H = a(5) + c(5) + c(0)*a(0)*(a(5) + c(5)) + c(1)*a(4) + c(4)*a(1)` the modes 1
and 4 end up in the wrong order and the simulation raises "Fermionic matching failed: Z Operator found".

C162 (`qrange_bound_wrong`, `qrange_reduce_wrong`, `qrange_copy_wrong`): `qRange` starts with `x(index); index += 1` (qrange.py:49-50) but undoes it with
`x(index); index += c_index - 1` (72-73, 81-82), which is one too little. After `for i in qRange(n)` the variable `n` holds n-1 (mod 2^(size+1)); for n = 0 a qubit in
state 1 is given back as free (84); with `create_index_qf=True` the index is never 0 when it is deleted (79). (`qrange_negative_wrong`): a signed bound -k runs the last k passes
instead of none, since the index overflows. The documentation (`Loops.rst`, quantum_conditionals.py:267-299) shows sums up to and including n; the loop runs i < n, as
`tests/core_tests/test_loops.py` expects. For a signed bound line 84 also removes the sign qubit of the variable (read, not modelled).

C163 (`round_floor_wrong`): for a positive exponent `q_floor` starts its loop at a negative index (arithmetic_tools.py:210); outside of tracing mode the highest
`exponent` qubits are copied twice and vanish: `q_floor` of `QuantumFloat(3, 1)` with the value 8 is 0 (`q_ceil`, `q_round` and `q_fractional` use `q_floor`). With `exponent > size` it
raises IndexError. (`round_modf_wrong`): for every negative value with a fraction the parts of `q_modf` add up to one less than the value (-1.75 gives -2 and -0.75), since
the fraction is taken from the ceiling (333-340) and the integer part is the floor (393).

C164 (`max_signed_wrong`): `q_max` and `q_min` copy the sign qubit (arithmetic_tools.py:88-89, 99-100) without extending it over the bits that the result has more than the
operand. A negative result from the operand with the shorter mantissa is wrong: `q_max` of -1 (2 bits) and -5 (4 bits) is -13.

C165 (`qubo_ten_wrong`, `qubo_ten_ratio_wrong`): `solution10` (qubo_problems.py:103) lists 1011010010 with cost -4.0. Its cost is -4.8, and the minimum of `Q10` is -5.4 (1011010101 and
0111001101). A run that always finds an optimum gets success probability 0 and approximation ratio 1.35.

C166 (`tree_subtree_phi_raises`, `tree_subtree_phi_wrong`): `Subtree.init_phi` assigns labels with `[:]` inside `with self.h == …` (backtracking_tree.py:1740-1742, 1749-1750). The freshness check
(utility.py:1280-1293) looks for the allocation in the session data, which is empty inside the block, so the call raises for every nonempty root path. Without the check the nodes would be wrong: the
root path is written at offset i behind the path instead of in front of it. (`tree_copy_wrong`): `copy` of a subtree (1014) drops the root path and shortens the branch array, although
the documentation promises an identical tree.

C168 (`stim_control_zero_wrong`): `qrisp_to_stim` ignores `ctrl_state` of a classically controlled operation (stim_converter.py:328-363), so control on 0 becomes control on 1.
(`stim_empty_detector_wrong`): a detector whose bits cancel is not written (307-308) but counted (310); later indices in the detector map are too large. (`stim_handle_wrong`): handles are
compared by their set of bits, so detectors on the same bits before and after a new measurement share one entry of the map.

C169 (`job_qiskit_none_wrong`): `QiskitJob.result` returns the cached result as soon as the last known status is final (qiskit_backend.py:140-142), but `status()` (194-197) sets that
status without fetching a result. Polling with `done()` until it is true and then calling `result()` returns `None`, always. The same follows from a timeout or a failed conversion after
which the status is DONE. (`job_iqm_final_wrong`): `IQMJob.cancel` sets CANCELLED itself (iqm_backend.py:190-191); a later `status()` or `result()` can change it again.

## How to read seeded/LOG.jsonl

Each line is one wrong program: one edited definition and a rebuild. The field `evidence` says what was seen.

* `theorem`: a listed property theorem failed itself.
* `helper`: a helper lemma failed. Its module did not build, so the property theorems behind it were not compiled. `theorems_failed` lists the property theorems whose proof depends on that
  lemma. This shows that the proof breaks; it does not show that each listed theorem is false for the edited program. Most lines are of this kind.
* `refuted`: the listed statements were evaluated with the edited definitions and are false on a sample input.
* `example`: only a concrete `example` failed, no theorem.
* `survived`: everything still built; `note` or `tightened` says what was done.

Correction: earlier versions of the log found the theorems behind a helper by searching the text for its short name. Helpers with common names such as `step` drew in unrelated theorems: 228 lines
listed 15341 names that do not depend on the failed lemma. The lists were recomputed from the constants used in the compiled proofs, as of the current theorems, and those names removed. No line
lost its last theorem.

Of the `helper` lines, 14 were drawn at random for evaluation and four of them evaluated. Three break the claim as logged. One (`cliqueStep`, an edit towards the intended code) had the wrong theorem
listed: it falsifies the finding `qiro_clique_positive_pair_wrong`. The other ten (for `isqStep` the evaluation ran out of time), and the `helper` lines outside the sample, were not evaluated. Reading the log again also showed six claims
that no theorem caught, only an example or nothing; `Verif/Props/Tight.lean` now states them.

## Status

MANIFEST.json lists the state of every property. Properties without a manifest entry are not yet modelled.
