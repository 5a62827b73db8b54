# Formal model of equivariant-MLP: design

`/verif/lean` holds a Lean 4 model of the pinned source in `/repo` and machine-checked
proofs of the properties listed in `/verif/properties.jsonl`.  `MANIFEST.json` maps each
property to theorem names; `seeded/LOG.jsonl` records mutation experiments on the model.

## Trusted base

* Lean 4.33.0's kernel and the three standard axioms `propext`, `Classical.choice`,
  `Quot.sound` (checked with `#print axioms`).  No own axioms, no `sorry`, no
  `native_decide`, no `bv_decide`.
* The faithfulness of the model: every definition in `Verif/Model` cites the file and lines
  it models, and says where it simplifies.
* Exact arithmetic.  Floating point is not modelled: arrays hold elements of a commutative
  ring / field / ℝ / ℂ.  Anything about tolerances is modelled with exact reals.
* External routines are parameters with a written contract: SVD (`orthogonal_complement`),
  the random generators, `expm`, `linalg.inv`, Python's
  `hash`, and the iteration order of a Python `set`.
* numpy semantics (reshape, moveaxis, fancy indexing, argsort, concatenate) are modelled on
  row-major arrays in `Model/Np.lean` and `Model/LinApply.lean`.  Where numpy and jax differ (a `-1`
  in a reshape of an array without entries) the numpy behaviour, an exception, is modelled.
* Python dictionaries are association lists in insertion order; two dictionary keys are the
  same iff the modelled values are structurally equal (no hash collisions between unequal
  representations).  Groups are identified by their `repr` exactly as `Group.__eq__` does.

## Layout

* `Verif/Model/*`  function-by-function models (definitions only, with source citations).
* `Verif/Spec/*`   small independent specifications (dense block-diagonal, Kronecker, ...).
* `Verif/Lemmas/*` helper lemmas.
* `Verif/Props/*`  the property theorems, each followed by `example`s showing that its
  hypotheses are met by a concrete non-trivial case.

## Assumptions that recur

* `World` bundles everything the code takes from its environment: the groups (dimension, flags, hash), the
  hashes of representations, the size of user-defined representations, the iteration order of a set
  (any permutation), `sorted` (any function returning a permutation of its input, and sorted when `<` is a strict
  total order on it), and the mutable global `Scalar.G`.
* `World.SingleOK g N` (C03, C05, C08-C12, C16, C21, C30-C41): no hash collision between two different
  canonical summands of size at most `N` of the group `g`, and `Scalar.G` is unset or hashes at most as high as
  `g`.  The letters are `V(g)` and its dual, and for groups flagged orthogonal also user-defined representations;
  all of dimension at least 2.  The hypotheses are needed: `C15_counterexample_*` exhibit what happens otherwise.
* `World.GroupsOK`, `World.MultiOK` (C04): several groups with pairwise different hashes, one representation per
  group.
* Solver: `solve` is any function whose result is an orthonormal basis of the null space of the constraint matrix it
  is given (`SolverOK`); `C28_solver_ok` proves that `orthogonal_complement` is such a function when the SVD meets its
  contract, its threshold separates the singular values and the iterative routine is exact on matrices of more than 3e7
  entries; `exists_svd` proves that every matrix has a decomposition as the contract demands; C26, C27, C29 cover the iterative solver.
* `np.linalg.inv` is the inverse of an invertible matrix (C08, C39, C72).
* Automatic differentiation (`jax.grad`, `jvp`) is the derivative.
* `odeint` returns the values of a solution (C92, C93: `Odeint.Exact`), or of the solution if there is one (C112: `Odeint.Sound`); its error control is not modelled.  For C122 it is assumed to commute with the orthogonal symmetries of the field (`Odeint.Natural`), which the adaptive steps of JAX do up to their tolerance only.

## Not modelled

* Floating point rounding, dtypes, devices, `jit`, logging, plotting, `tqdm`.
* The initialisation of parameters (arbitrary values instead).
* `experiments/datasets/batchnorm.py` (it does not import: `export` is undefined), the plotting library behind the animations, `oil` and `torch`
  library code. `jax.jvp` is taken to be the directional derivative (`Model/Jvp.lean`).

## Properties

Status: P proved as stated; p partial (the statement fails or is proved for part of its range; a machine-checked
counterexample is given wherever it fails).

| id | st | modelled | how proved; what is missing or false |
|----|----|----------|--------------------------------------|
| C01 | P | `SumRep.__init__`, `compute_canonical`, `rho`, `drho` | labelled-block invariant of the merge loop, induction on the list of summands, for every strict total order; no hypothesis on the order when no argument is a sum (`C01_terms`). Outside the range: comparison not total across groups or with a stale `Scalar.G` (`C01_counterexample_*`) |
| C02 | P | `ProductRep.__init__`, `compute_canonical` on n-d arrays | multi-index argument, induction on the factor list |
| C03 | P | `distribute_product`, `rep_permutation`, `mul_reps` | block products and composition of permutations; one group |
| C04 | p | `DirectProduct.__init__`, `rho`, `mul_reps` over groups | any representations of pairwise different groups; sums, products, duals of one representation per group. False when a representation and its dual are mixed over groups: `C04_counterexample_raises`, `_order` |
| C05 | P | perms of all constructors | corollary of the C01-C03 invariants on expressions |
| C06, C07 | P | `canonicalize`, counters | stability and uniqueness of sorted permutations |
| C08 | P | `T` of all classes | induction on representations |
| C09 | P | `__rshift__`, `__lshift__` | Kronecker-vec identity |
| C10 | P | evaluator over all public operators | induction on expressions |
| C11 | P | `rho`, `drho` | induction on the specification matrices |
| C12 | P | deferred representations, `T(p,q,G)`, `__call__` | induction on expressions; mixing in an instantiated product raises (proved) |
| C13 | p | `SumRep.__call__` | own group: identity. Other group: three counterexamples (merged duals, merged groups, stale ordering) |
| C14 | p | `canonical` flags | iff for sums; for products the code tests an involution: counterexample `V.T*V` |
| C15 | p | `__lt__`, `__eq__`, `__hash__` | strict total order on one group; four counterexamples |
| C16 | P | integer cases of the operators | case analysis |
| C17 | P | `as_dict` | labelled blocks |
| C20 | P | `constraint_matrix`, `ConcatLazy` | linear algebra |
| C21 | P | `equivariant_basis` of all classes, with the cache | SVD contract, block and Kronecker arguments, invariant over call histories |
| C22 | P | `equivariant_projector` | linear algebra over the reals |
| C23 | p | the same over the complex numbers | false: `.H` of a dense operator does not conjugate; true for real solutions |
| C24 | p | `solcache` as a state machine | invariant over histories; false for two `Embed` groups (printed alike) |
| C25 | P | `noise2sample`, `samples` | exponential of derivations, induction over powers |
| C26, C27 | P | loops of the iterative solver | well-founded loop invariants |
| C28 | P | `orthogonal_complement` | SVD contract, rank-nullity |
| C29 | p | end of `krylov_constraint_solve_upto_r` | `S[rank]` raises IndexError when every vector is invariant |
| C96 | P | the descent of `krylov_constraint_solve_upto_r` (`Model/Descent.lean`) | spectral theorem, heavy-ball recursion per eigenvalue, least squares for completeness; divergence and complex counterexamples |
| C97 | p | `sparsify_basis`: thresholds, retries (`Model/Sparsify.lean`); losses and final `W` are parameters | cases on entries, induction on attempts; columns are rescaled columns of `Q W^T`; false in general |
| C30 | P | `Linear` | C09, C22, C25; several groups (`C30_linear_groups`): the weight is fixed by every generator of every group, a generator of one group fixing the factors of the others |
| C31, C32, C41 | P | `bilinear_weights`, `BiLinear` | block bookkeeping, for every choice of copies |
| C33 | P | `gated` | induction on the summands; on products over several groups `rep.G` raises |
| C34, C35 | p | `gate_indices`, `GatedNonlinearity` | canonical sums; other sums and single representations raise (proved) |
| C36, C40 | P | `EMLPBlock`, `EMLP` from the user's arguments | induction over layers |
| C42 | P | the four front ends on batches (`Model/FrontEnds.lean`), `torchify_fn` | each front end equals the objax one; rowwise composition |
| C43 | P | `Standardize`, the statistics of the datasets (`Model/Standardize.lean`) | linear algebra on list vectors; composition with C40; counterexamples for mean vectors and coordinatewise scales |
| C37 | P | `uniform_rep`, `binomial_allocation` | loop invariants; in dimension 1 the order of the summands is arbitrary, so there the sizes are shown not to depend on it |
| C38 | P | `lambertW` | loop invariant |
| C39 | p | `GroupAugmentation` | true when `rho` is a plain array; raises for lazy operators (proved) |
| C50-C53 | P | matrix groups | matrix algebra, exponentials |
| C54 | P | `S`, `Z` | generation of the symmetric group by induction |
| C55 | P | `is_permutation` | real inequalities; a tolerance counterexample shows the hypothesis is needed |
| C56-C58 | p | `Group.__init__`, `__repr__`, `__eq__` | tolerance, `D(1)` and `Embed` counterexamples |
| C59 | p | `Cube`, `RubiksCube` tables | whole tables by `decide +kernel`; the cubie claim is false (proved) |
| C60, C61 | P | products, `Embed`, `C`, `D` | matrix algebra, exponentials |
| C62 | P | `matrix_power_simple` | strong induction on the exponent |
| C63 | P | `ZksZnxZn` (`LazyShift`, `Rot90`, `LazyKron`) against motions of a periodic grid (`Spec/Grid.lean`) | the generators permute sites; words in them by induction; commutants through the simply transitive action |
| C70-C72 | p | every operator class down to array operations | induction on operator trees; counterexamples for direct sums of rectangular operators, nested Kronecker products, complex adjoints, `invT` of sums and multiples |
| C73 | P | `rho`, `drho`, `rho_dense`, `drho_dense`, `constraint_matrix` as trees of operator objects (`Model/RhoOp.lean`) | each tree is well formed and stands for the matrix of C10, C04 and C20; then C70 |
| C74 | P | `equivariant_basis`, `equivariant_projector` as trees of operator objects (`Model/BasisOp.lean`) | simulation between the object-building and the matrix-building solver monads; then C21, C22 and C70 |
| C80-C82, C85 | P | label functions, `rep_in`, `rep_out`, `symmetry` | polynomial identities; the generated groups preserve their forms (C50, C51); blocks of the representation matrices |
| C83 | p | cube datasets | invariant over all move sequences; false for `BrokenRubiksCube` |
| C84 | P | `pack`, `unpack`, `symplectic_form`, `hamiltonian_dynamics` | derivative along the field |
| C86 | p | chunking | false when the chunk length does not divide the trajectory |
| C87, C88 | p | `Trainer` state machine | invariants over histories; `train(0)` and NaN counterexamples |
| C89, C90 | P | metric averaging, pytrees | induction |
| C91 | P | `EMLPH`, `hamiltonian_dynamics`, the pendulum (`Model/Dynamics.lean`) | C40, then the chain rule: `Mᵀ∇H(Mz)=∇H(z)` and `MJMᵀ=J`; counterexamples for `2*V` of a shear and for a vector output |
| C92 | P | `HamiltonianFlow`, `EMLPode`, `odeint` as contract | uniqueness of solutions (Grönwall); vanishing derivative of energy and of momenta (Noether) |
| C93 | P | `BOdeFlow`, `BHamiltonianFlow`, ravelling of the batch | blocks of a solution of the flattened system are solutions; uniqueness |
| C94 | P | `equivariance_error`, `rel_err`, `scale_adjusted_rel_err`, `equivariance_err` (`Model/Errors.lean`) | triangle inequality of the root mean square; columns of the basis are fixed (C21), hence the matrices commute; C42 for networks |
| C95 | P | `log_rollout_error`, `test_Rollout` | exponential of a mean of logarithms; bounds of the product |
| C98 | P | losses and metrics of `classifier.py`, with broadcasting (`Model/Losses.lean`) | sums; isometry of orthogonal matrices; softmax is unique; scan invariant of argmax |
| C99 | p | the configuration dictionary of `makeTrainer` as a mutable object (`Model/Experiments.lean`) | induction over histories; false for the default dictionary |
| C100 | P | turn tables, colourings, the three 'broken' transformations | 3-cycles through two fixed stickers (certified words) generate the alternating groups; signs of the turns; equal colour counts give a permutation whose parity is repaired by two edge stickers of one colour |
| C101 | P | `Trivial(n)`, `Scaling(n)` through `Group.__init__` | induction over the generated group; exponential of a multiple of the identity |
| C103 | p | `Rep.drho` (default) and `LazyJVP` (`Model/Jvp.lean`), `Dual.drho` of the operator; the two representations of docs/notebooks/4new_representations.ipynb | derivative of a product with a fixed vector; chain rule along `1+tA` and `exp(tA)`, one-parameter groups; the bases of `psi_p>>psi_q` by solving the 4x4 system. Fails for duals: `LazyJVP` has no `_rmatvec`, so `Dual(rep).drho(A)` cannot be applied to vectors, nor made dense in dimension 1 (`C103_counterexample_*`) |
| C104 | P | `Linear` (`Model/Layers.lean`) and `equivariant_basis`/`equivariant_projector`; generator tables of `groups.py` | converse of C25 (fixed by the group implies fixed by the generators, by differentiating at the identity), the projector leaves every solution unchanged; commutants by entrywise argument with the spanning results C50-C54, C63, C100; dimension through an injective linear parametrisation |
| C105 | p | the disk accesses of `HamiltonianDataset.__init__` as steps of concurrent processes with kill events (`Model/DiskCache.lean`); `torch.save`/`load` as an encoding that detects truncation | invariants over all schedules: a file without writers never changes and all readers agree; a sole writer leaves exactly the prefix it has written. False after a crash inside `torch.save`, for simultaneous first constructions and for equal class names (`C105_counterexample_*`). Loss of buffered writes by a crash of the machine is not modelled |
| C107 | p | the cache accesses of `equivariant_basis`/`equivariant_projector` (test, solve, store, read back) as atomic steps of any number of threads under any schedule (`Model/Threads.lean`) | invariant: every cached pair is an answer of the routine for that key, and a key once present stays; postcondition of each method under interference; projectors agree because the orthogonal projector is unique; a single thread refines the sequential model of C20–C24. The clause on repeated calls is false (`C107_counterexample_basis`) |
| C108 | p | the data of `Animation`, `CoupledPendulumAnimation`, `helix`, `align2ref` and `HamiltonianDataset.animate`, over the reals with `none` for numbers that are not finite (`Model/Animation.lean`) | `align2ref`'s matrix is the rotation taking the third axis to the direction of the spring (polynomial identities), so the helix ends at the bobs and keeps its radius; the factor `Ns` in the angle of `helix` cancels at the sample points by periodicity; slices by list lemmas. False clauses: `C108_counterexample_springs`, `…_sho`, `…_bodies` |
| C109 | p | `hnn_trial.__call__`/`ode_trial.__call__` with the configuration dictionary, every stage an arbitrary function that may raise; result = dictionary left behind, files written, value returned or raised (`Model/Trial.lean`) | success characterised (iff) stage by stage; case analysis of the `try` block; file names by injectivity of decimal digits; log suffix by induction over the history. False clauses: `C109_counterexample_lenient`, `…_save`, `…_nested`, `…_overwrite` |
| C110 | P | the solver model of C20-C24 and the layer model of C30, with a routine that is exact only up to a threshold `ε` (`Spec/Approx.lean`); rounding errors of the arithmetic around it are not modelled | approximate bases of sums, products and permuted representations assembled with the error of their factors (`Lemmas/Approx.lean`, `ApproxSolver.lean`); words in the generators by induction, exponentials by the mean value inequality on `t ↦ exp(tX)v`, representations of orthogonal groups are orthogonal (`RepUnit.lean`, `ApproxExp.lean`, `ApproxWord.lean`); layers by Cauchy–Schwarz and Bessel (`ApproxLayer.lean`). `C110_counterexample_scalings`: needed that the group is orthogonal |
| C111 | P | the network model of C40 and the front ends of C42, `mse` of C98; activation a parameter, the sigmoid in `C111_sigmoid` | every layer maps smooth families of vectors to smooth families or raises for all of them (`Lemmas/Smooth.lean`); composition |
| C112 | P | `EMLPode`, `EMLPH`, `HamiltonianFlow`, `BOdeFlow`, `odeint` as contract (`Odeint.Sound`) | smoothness (C111), hence locally Lipschitz; uniqueness (C92), short-time existence (Picard-Lindelöf); `rho(exp(tA)) = exp(t drho(A))` for all expressions (`Lemmas/ExprExp.lean`) and Noether's argument |
| C113 | P | the network model of C40 with the solver hypothesis of C110 | every layer of the network is near to equivariant and Lipschitz on bounded sets with constants that depend only on shapes and bounds (`Lemmas/ApproxNet.lean`); induction over the blocks; construction is independent of the solver (`C113_solver_independent`) |
| C106 | p | `InvertedCube`, `BrokenRubiksCube` down to the flattened arrays (`Model/CubeData.lean`), draws and shuffling as parameters | scrambling lemma; orbits of the states (C83, C100); false for `BrokenRubiksCube` (proved) |
| C102 | P | `HamiltonianDataset` (without the cache), `IntegratedDynamicsTrainer.loss`, `IntegratedODETrainer.loss` | time shift of a solution, uniqueness (C92), batches (C93); orthogonal matrices keep distances |
| C114 | P | `MLP`, `MLPBlock`, `swish`, `MLPode`, `MLPH` in all front ends (`Model/Mlp.lean`) | induction on the layers; the derivative of swish is at most 2, so that the network is Lipschitz and its field has linear growth; Picard-Lindelöf with a step that does not depend on the state, glued; bounded gradient for `MLPH` |
| C115 | P | the generator tables of `SO`, `O`, `Sp`, `GL`, `SL`, `U`, `SU`, `SO13p`, `SO13`, `O13`, `SO11p`, `O11` (`Model/Groups.lean`) | explicit exponentials of plane rotations, boosts and shears (`Lemmas/ExpForms.lean`); elimination of one coordinate after the other: a product of exponentials moves `h e_k` back to `e_k` fixing the earlier axes (`Lemmas/Classical*.lean`); transvections for `Sp`, transvections and diagonal matrices for `SL`; Cauchy-Schwarz for products of orthochronous matrices |
| C116 | P | the constructors as group objects (`Model/ClassicalGroups.lean`) through `Group.__init__` and `Embed` (`Model/GroupInit.lean`); `U`, `SU` in `Model/ComplexGroups.lean` | C115 for the elements; the relative error of the flag is bounded below because no entry of a generator cancels with its mirror image (for U, SU: half of the entries do not); C60 for the embedded groups |
| C117 | P | solver, layers and networks as for C22, C30, C36; the whole groups as predicates on matrices (`Spec/Laurent.lean`) | along a curve such as `diag(t,1,…,1)` or a boost by `log t` every entry of every representation is a Laurent polynomial in `t` (induction over representations); one that is constant for `t > 0` is constant at `t = -1` |
| C118 | P | solver, layers and networks as for C22, C30, C36; ranks (`Spec/Rank.lean`) | on diagonal sign matrices every representation of rank `r` is diagonal with entries products of at most `r` signs (induction over representations); an entry of an invariant is fixed by all even sign changes, hence, if fewer than `n` signs occur in it, by a single one; `O(n)` is generated by `SO(n)` and one reflection. Sharpness for `n = 2` by a witness |
| C119 | P | `samples`, `sample` with the draws as arguments (`Model/Samples.lean`) over the noise model of C25 | surjectivity of `exp` onto SO(n) and U(n): diagonalise the symmetric part `c`, then `exp(arccos(c) J) = c + K` with `J = K/√(1-c²)`, and on the eigenspace of -1, of even dimension, pair coordinates; powers of one generator by arithmetic of exponents; a diagonal matrix with a simple negative entry is no real exponential.; SU(n) by shifting one eigenvalue; S(n) by counting outcomes against n!; D(k) by moving flips to the right. Not treated: which elements SO13p, SO13, O13 and small S(n) sample |
| C120 | p | `_CustomLinearOperator` with the user's functions as parameters, default `_matmat`/`_rmatmat` by columns, `-A`, `A-x`, `SwapMatrix`, `MatrixLinearOperator`, `IdentityOperator` (`Model/CustomOp.lean`) | from the contract of the functions (`CustomOp.For`) by stacking columns; sums etc. through C70; counterexample: matrices without columns |
| C121 | p | training runs with parameters, optimizer state and log (`Model/Training.lean`), on top of the events of `Trainer.train`; automatic differentiation and optimizer are parameters | the losses of two trainers agree as functions of the parameters (C40, C42 row by row, orthogonal matrices keep the squared error), then induction over the events; augmentation through C39; counterexample with `Scaling(1)` and exact gradient descent |
| C122 | P | the trainers of hamiltonian_dynamics.py as training runs (`dynamicsTrainer` in `Model/Training.lean`), with `odeint` a parameter that commutes with orthogonal symmetries of the field (`Odeint.Natural`) | rollouts move with the initial states (C40/C91 for the fields, block diagonal matrices for batches), losses and rollout errors are kept by orthogonal matrices, then as C121 |
| C123 | P | the training runs of C121, reordered minibatches (`Spec/Shuffle.lean`) | squared errors, cross entropies and accuracies are means over rows; means are invariant under reordering; then as C121; row-wise by C41/C42 |
| C124 | P | layers of C30, front ends of C41, training runs of C121 (`Spec/GradientTraining.lean`) | the loss is constant along what the projector removes, the projector is symmetric, so the gradient is in its range; induction on steps; training runs commute with translations of the parameters that the loss does not see |
| C125 | P | `Model/RegressorPlus.lean`: `islice`, the logging of `RegressorPlus`, `Standardize` on batches; training runs of C121, errors of C94 | the run without the extra rows is a simulation; rows of the log come from the two logging steps; a mean of numbers in [0,1] is 0 only if all are; `Standardize` on rows is C43 |
| C126 | P | training runs of C121; `Spec/TrainingRuns.lean` is the recursion without loops, counters or logging | induction on the events and calls: the steps among the events are the minibatches of the epochs, and logging keeps parameters and optimizer state |
| C127 | P | the solver of C21; `Spec/Characters.lean` has the rules for characters and the orbits on tuples | the average of the matrices is a projector onto the fixed vectors, its trace is its rank; Burnside's lemma; tuples with the same coincidences; shifts have no fixed points |
| C128 | P | the network of C40; `Spec/Degree.lean` has the degree of an expression | equivariance at multiples of the identity, which act as numbers by induction on the expression; limits and derivative at zero of t^s A |
| C129 | P | the constructors of C30, C36, C40 | two runs side by side (relational invariant over the constructor monad); there is only one orthogonal projector onto the invariant vectors; two orthonormal bases of a space differ by Q^H Q' |
| C130 | P | `**`, `>>` and `equivariant_basis` as for C21; the generators of `SL(n)` (C53, C115) | entries of a tensor power are products over the digits of the indices; the determinant is multilinear and multiplicative; for `SL(n)` squeezing two coordinates (2, 1/2) forces equal multiplicities of all indices, signed permutation matrices force antisymmetry |
| C131 | P | networks as for C40, bases as for C21; a change of coordinates acts on every representation as a group element would (`Interp.frame`) | the vectors fixed by one group are the images of those fixed by the other; an orthogonal map carries orthogonal projectors to each other; bilinear layer and nonlinearity commute with orthogonal maps (renumberings for permutation groups) of their inputs, block by block; generators conjugated by `P` generate the conjugated group |
| C132 | P | expressions of one group as for C40, products over several groups as for C30; bases as for C21 | an orthonormal basis of a space has as many columns as its dimension; the fixed spaces of a sum, a rearranged product and a product over different groups are related by linear isomorphisms; `V` and `V.T` differ for a group that is not orthogonal (`C132_counterexample_dual`) |
| C133 | P | two networks built side by side as for C131 | the weights that a layer for the larger group uses are fixed by the projector of the smaller group; the vectors fixed by both sets of generators are those fixed by all of them; nested subspaces of the same dimension are equal (Props/Strict) |
| C134 | P | the two networks built side by side, up to the further blocks | with twice the embedding as weight, no bias and no bilinear part, a block is the identity: the gates are 0, and the nonlinearity halves |
| C135 | P | the functions that a layer computes for the various values of its parameters | by C104 they are the equivariant affine maps; these contain the inclusions and projections of a direct sum and are closed under composition and linear combinations (Props/LinearAlg) |
| C136 | P | two networks from the same constructor with other inputs and outputs | the hidden layers agree, the first and last Linear layers compute all equivariant affine maps of their sizes (C104), which are closed under composition (Props/Wrap) |
| C137 | P | Standardize around a network (C43) | shifting by fixed vectors and scaling by admissible scales are equivariant affine maps, so C136 absorbs them, and so are their inverses (Props/Absorb) |
| C138 | P | equivariant_projector, Linear, the finite set of all group elements | the mean is invariant by reindexing, and the projector absorbs orthogonal elements; for Linear, the elements act on the weights by ρ_out ⊗ ρ_in; nearest by Pythagoras (Props/GroupMean) |
| C139 | P | as C138, with a random element whose distribution is invariant under the group | the expected matrix is invariant and absorbed by the projector; representations depend measurably on the element by induction on representations; trace of the projector for the number of columns; a uniform angle gives a uniform rotation about an axis (Props/Haar); closed groups of orthogonal matrices are compact and have a Haar measure (Props/HaarExists); the count for SO(2) from the integrals of the powers of the cosine (Props/PlaneCount) |
| C140 | P | the model of GroupAugmentation (C39) around a network that is any function of a row | the output for the element h at the moved row is the moved output for ht at the row, and right multiplication permutes the group; C138 with h and its inverse exchanged for the plain layer (Props/AugMean); the same with the invariance of the distribution in place of the permutation, the output being bounded as the orbit is (Props/AugHaar) |
