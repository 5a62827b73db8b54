#!/usr/bin/env python3
"""Writes /verif/properties.jsonl.  Edit the list below and re-run."""
import json, os
P = []
def p(id, title, statement, quantifier, why, anchors):
    P.append(dict(id=id, title=title, statement=statement, quantifier=quantifier,
                  why_tests_cant=why, anchors=anchors))

PS = "emlp/reps/product_sum_reps.py"; RP = "emlp/reps/representation.py"
LO = "emlp/reps/linear_operators.py"; LB = "emlp/reps/linear_operator_base.py"
GR = "emlp/groups.py"; NN = "emlp/nn/objax.py"; DS = "emlp/datasets.py"
HD = "experiments/trainer/hamiltonian_dynamics.py"; TR = "experiments/trainer/trainer.py"

# ---------------------------------------------------------------- representation algebra
p("C01", "Direct sum keeps the user's coordinate order",
  "For reps r1..rk, the matrix rho(M) of r1+...+rk, applied to a vector that is the concatenation v1,...,vk, returns the concatenation rho_r1(M)v1,...,rho_rk(M)vk: internal canonical reordering is invisible. The same holds for drho(A).",
  "every list of summands (repeated, nested sums and multiplicities included), every group element/matrix M, every total order the hash-based sort may induce",
  "The internal order depends on Python string hashing (randomised per process) and on the combination of summands; tests see one seed and a few sums.",
  [PS+":SumRep.__init__", PS+":SumRep.compute_canonical", PS+":SumRep.rho", PS+":SumRep.drho"])
p("C02", "Tensor product of reps of one group is the Kronecker product in the user's order",
  "For reps r1,r2 of the same group (atoms, duals, or tensor products of them), rho(M) of r1*r2 is kron(rho_r1(M), rho_r2(M)) in row-major coordinates, whatever canonical axis order is chosen internally; drho(A) is the Kronecker sum.",
  "every pair of factors (any nesting of products and duals), every M, every sort order",
  "The axis permutation is computed by reshape/transpose index arithmetic; errors show only for particular size/multiplicity patterns and hash seeds.",
  [PS+":ProductRep.__init__", PS+":ProductRep.compute_canonical", PS+":ProductRep.rho", PS+":ProductRep.drho", PS+":mul_reps"])
p("C03", "Products of sums distribute without moving coordinates",
  "For direct sums a and b, rho(M) of a*b is kron(rho_a(M), rho_b(M)) in row-major coordinates even though the product is stored as a sum of products.",
  "every pair of sums of representations of one group of dimension at least two (all block sizes and multiplicities; several groups: C04), every M, every consistent sort order",
  "The block permutation composes four permutations; a wrong composition agrees with the right one whenever one of them is an involution or blocks have equal size.",
  [PS+":distribute_product", PS+":rep_permutation", PS+":mul_reps"])
p("C04", "Tensor product across different groups is the Kronecker product in the user's order",
  "For reps r1 of G1 and r2 of G2, rho({G1:M1,G2:M2}) of r1*r2 is kron(rho_r1(M1), rho_r2(M2)); this must persist under further products with reps of G1 or G2 and under duals. The constructor ProductRep(r1,r2,...), which is for one group, raises AssertionError when its factors belong to different groups.",
  "every pair/sequence of factors over two or more groups, all matrices M1, M2, every hash order",
  "Correctness needs reps of one group to be contiguous in the hash-dependent sorted order; only some hash seeds and non-orthogonal groups break it.",
  [PS+":DirectProduct.__init__", PS+":DirectProduct.rho", RP+":Rep.__lt__", RP+":Base.__lt__", RP+":Dual.__lt__"])
p("C05", "Stored ordering is always a genuine permutation of the coordinates",
  "For every representation built from the public operators, rep.perm is a permutation of 0..size-1, rep.invperm is its inverse, and rep.size() equals the sum (product) of the operand sizes.",
  "every representation expression over one group of dimension at least two, every consistent sort order",
  "A duplicated or dropped index silently corrupts vectors only for particular size patterns.",
  [PS+":SumRep", PS+":ProductRep", PS+":DirectProduct"])
p("C06", "Canonicalisation is lossless and idempotent",
  "canonicalize() returns (c, perm) with rho_c(M) = P rho(M) P^-1 for P the reindexing v -> v[perm]; c is itself canonical (identity ordering) and canonicalising c again returns c with the identity ordering.",
  "every concrete representation built from the public operators",
  "Idempotence failures appear only for particular orders produced by the comparison function.",
  [PS+":SumRep.canonicalize", PS+":ProductRep.canonicalize", RP+":Rep.canonicalize"])
p("C07", "Canonical form does not depend on how the sum or product was written",
  "If two direct sums (or two tensor products) contain the same representations with the same multiplicities, their canonical forms are equal (so they share cached solutions), for every consistent comparison order.",
  "every pair of reorderings of the same summands/factors",
  "Tests compare only a few fixed spellings under one hash seed.",
  [PS+":SumRep.compute_canonical", PS+":ProductRep.compute_canonical", RP+":Rep.__lt__"])
p("C08", "The dual representation is the inverse transpose",
  "rep.T.rho(M) is the inverse transpose of rep.rho(M) in the same coordinate order, and rep.T.drho(A) = -rep.drho(A)^T; for groups flagged orthogonal, where .T returns the rep itself, this still holds for every M with M M^T = I.",
  "every representation expression over one group of dimension at least two, every invertible M, every A, every consistent sort order",
  "Duals of products and sums re-sort their components; order mistakes depend on sizes and hash order.",
  [RP+":Rep.T", RP+":Dual", PS+":SumRep.T", PS+":ProductRep.T", RP+":ScalarRep.T"])
p("C09", "Linear maps are flattened row-major",
  "(rin>>rout).rho(M) applied to the row-major flattening of a matrix W is the row-major flattening of rho_rout(M) W rho_rin(M)^-1; hence vec(W) is invariant iff W rho_rin(M) = rho_rout(M) W. rout<<rin is the same representation.",
  "every pair of representations of one group of dimension at least two, every invertible M, every W, every consistent sort order",
  "Transposed conventions coincide for orthogonal groups and symmetric shapes, which are what tests use.",
  [RP+":Rep.__rshift__", RP+":Rep.__lshift__"])
p("C10", "Whole expressions denote the mathematical construction",
  "Evaluating any expression built from V, Scalar, integers, +, *, **, .T, >> on a group yields a representation whose rho(M) is the matrix obtained by interpreting + as direct sum, * as Kronecker product, n*r as n copies, r**n as n-fold product, .T as inverse transpose.",
  "every expression tree (unbounded depth), every group of dimension at least two, every M, every consistent sort order",
  "Only composition of all rewriting steps over unbounded expressions shows the property; tests check a handful of expressions numerically.",
  [RP+":Rep.__add__", RP+":Rep.__mul__", RP+":Rep.__pow__", PS+":mul_reps", RP+":mul_reps"])
p("C11", "rho is a group homomorphism and drho is linear",
  "For every representation built by the operators, rho(I) = I and rho(MN) = rho(M)rho(N) for invertible M, N; drho(aA+bB) = a drho(A) + b drho(B) and drho([A,B]) = [drho(A),drho(B)].",
  "every representation expression, all matrices",
  "Universally quantified algebraic laws.",
  [PS+":SumRep.rho", PS+":ProductRep.rho", RP+":Dual.rho", RP+":Base.rho"])
p("C12", "Deferred representations instantiate to the same thing as direct construction",
  "Building an expression from the group-less V and calling it on G gives the same representation matrices as building it from V(G); in particular T(p,q)(G) has size d^(p+q) and rho = M^{(x)p} (x) (M^-T)^{(x)q}.",
  "every expression, every group of dimension at least two, all p, q",
  "Instantiation order and re-instantiation of already concrete parts give distinct code paths per expression shape.",
  [PS+":DeferredSumRep.__call__", PS+":DeferredProductRep.__call__", RP+":T", RP+":Base.__call__", RP+":Dual.__call__"])
p("C13", "Re-instantiating a concrete sum preserves it",
  "Calling a concrete direct sum on a group yields the same multiset of summands moved to that group, with the same total size.",
  "every concrete sum and target group",
  "Key collisions (V and V* becoming equal, equal reps of two groups) only arise for particular group pairs.",
  [PS+":SumRep.__call__", PS+":SumRepFromCollection"])
p("C14", "The canonical flag means identity ordering",
  "rep.canonical is True exactly when v[rep.perm] = v for all v; hashing a non-canonical rep fails.",
  "every SumRep, ProductRep and DirectProduct",
  "The product classes test an involution instead; only particular permutations separate the two.",
  [PS+":SumRep.__init__", PS+":ProductRep.__init__", PS+":ProductRep.__hash__"])
p("C15", "Equality, hashing and comparison of representations are coherent",
  "Comparison used for canonical sorting is a strict total order on the representations being sorted, and equal reps have equal hashes.",
  "every set of representations over the groups involved, all hash values",
  "Violations need particular hash relations between groups, duals and the global Scalar object.",
  [RP+":Rep.__lt__", RP+":Base.__lt__", RP+":Dual.__lt__", RP+":ScalarRep.__call__", GR+":Group.__lt__"])
p("C16", "Integer shorthand and powers",
  "rep + n and n + rep append/prepend n scalar coordinates; 0+rep = rep+0 = rep; n*rep is n copies; rep**n has size size^n; Scalar is the unit of *; negative powers and non-integers are rejected.",
  "all n and all representations of one group of dimension at least two", "Quantifies over all integers and reps.",
  [RP+":Rep.__add__", RP+":Rep.__radd__", RP+":Rep.__pow__", RP+":mul_reps", RP+":ScalarRep.__mul__"])
p("C17", "as_dict splits a vector into its typed parts",
  "For a direct sum built as written, rep.as_dict(v) maps each summand type to the (count,size) array whose rows are exactly the parts of v of that type, each coordinate of v appearing exactly once.",
  "every direct sum and vector", "Depends on the stored permutation for all sums.",
  [PS+":SumRep.as_dict"])

# ---------------------------------------------------------------- equivariance solver
p("C20", "The constraint matrix characterises generator invariance",
  "For every representation of one group (atom, dual or tensor product), constraint_matrix() @ v = 0 exactly when rho(h)v = v for every discrete generator h and drho(A)v = 0 for every Lie algebra generator A; with no generators every v satisfies it. Direct sums and products over several groups have no constraint_matrix (AttributeError).",
  "every representation, every generator set, every vector", "Universally quantified linear algebra over lazily concatenated operators.",
  [RP+":Rep.constraint_matrix", LO+":ConcatLazy"])
p("C21", "equivariant_basis spans exactly the invariant subspace",
  "For atoms/products solved by SVD (assuming the SVD contract), for direct sums assembled block-wise, and for products of different groups assembled by Kronecker products, the columns of equivariant_basis() are an orthonormal basis of exactly the invariant subspace of rho.",
  "every representation expression, every generator set", "Completeness (no missing solution) cannot be observed by sampling.",
  [RP+":Rep.equivariant_basis", PS+":SumRep.equivariant_basis", PS+":DirectProduct.equivariant_basis", RP+":orthogonal_complement"])
p("C22", "equivariant_projector is the orthogonal projector onto the invariant subspace",
  "P = equivariant_projector() satisfies P P = P, P^T = P, P v = v exactly for invariant v, and every P w is invariant; it commutes with the reordering for sums and mixed products.",
  "every real representation expression and every vector", "Quantifies over all vectors and expressions.",
  [RP+":Rep.equivariant_projector", PS+":SumRep.equivariant_projector", PS+":DirectProduct.equivariant_projector"])
p("C23", "equivariant_projector is a projector for complex groups too",
  "For groups with complex generators P = equivariant_projector() is idempotent and Hermitian.",
  "every complex representation", "Needs exact complex arithmetic on all bases; the real tests cannot tell transpose from adjoint.",
  [RP+":Rep.equivariant_projector", LB+":Lazy._rmatmat"])
p("C24", "The solution cache is transparent",
  "Over any history of equivariant_basis() calls on any representations, each call returns what a fresh process would return for that representation.",
  "every finite sequence of calls", "History property: the wrong result needs a particular earlier call with a colliding key.",
  [RP+":Rep.equivariant_basis", RP+":Rep.solcache", GR+":Group.__eq__", GR+":Embed.__repr__"])
p("C25", "Invariance under generators extends to every sampled group element",
  "If v satisfies the generator constraints then rho(g)v = v for every g that samples() can return (exp of any Lie algebra combination times any sequence of integer powers of discrete generators).",
  "every representation expression, all Gaussian coefficients z, all integer powers k, all generator orders", "Random sampling in tests covers a measure-zero family.",
  [GR+":noise2sample", GR+":matrix_power_simple", RP+":Rep.constraint_matrix"])
p("C26", "The iterative solver's rank doubling finds the complete solution space",
  "krylov_constraint_solve never returns an undefined basis, stops after finitely many rounds, and, unless the memory guard fires, the rank it returns is the full nullity, assuming each round finds min(r, nullity) solutions.",
  "every constraint shape and nullity", "Boundary ranks (5*2^k exactly) and memory-guard boundaries are not reachable in tests.",
  [RP+":krylov_constraint_solve"])
p("C27", "Learning-rate retries terminate",
  "krylov_constraint_solve_upto_r retries with smaller learning rates at most a fixed number of times before raising ConvergenceError, whatever the loss trajectory.",
  "every sequence of diverge/converge outcomes", "Adversarial loss trajectories.",
  [RP+":krylov_constraint_solve_upto_r"])

p("C28", "The SVD null space routine is exact up to its threshold",
  "orthogonal_complement(C) has orthonormal columns whose span contains every v with Cv = 0; every w in the span satisfies |Cw| <= 1e-5|w|; the columns are a basis of exactly the null space if and only if no singular value of C lies in (0, 1e-5].",
  "every matrix C and every singular value decomposition of it", "Tests see a few matrices whose singular values are far from the threshold.",
  [RP+":orthogonal_complement", RP+":Rep.equivariant_basis"])
p("C29", "The iterative solver returns whenever the descent converges with a clear gap",
  "If the descent of krylov_constraint_solve_upto_r converges and the singular values of the result split into those above and those far below the cutoff, the routine returns the orthonormal directions above the cutoff, whatever the rank limit and the dimension.",
  "every list of singular values, rank limit and dimension", "The failing case (rank equal to the number of singular values, below the rank limit) needs a large representation on which every vector is invariant.",
  [RP+":krylov_constraint_solve_upto_r"])

# ---------------------------------------------------------------- layers
p("C96", "The iterative solver's descent converges to the solution space",
  "For a real constraint matrix C, the descent of krylov_constraint_solve_upto_r never changes the component of its iterate along solutions of the constraint. If the learning rate times |C|^2 is below 3.8 the iterates converge exponentially to the orthogonal projection of the start onto the solutions, so the stopping test is eventually met; above 3.8 the losses are unbounded. For starts of full rank against the solutions the limit's columns span exactly the solutions, and a solver whose rounds end at their limits returns an orthonormal basis of all solutions unless the memory guard stops it. Every returned column q satisfies |Cq|^2 (10 tol)^2 <= 2 loss. For a complex C only real solutions are found.",
  "all constraint matrices, learning rates, starts, iterations and tolerances", "Convergence is a statement about infinitely many iterations, all matrices and all random starts; tests run a few descents on large representations only.", [RP+":krylov_constraint_solve_upto_r", RP+":krylov_constraint_solve"])

p("C30", "Linear layers are equivariant for all parameters",
  "For every weight and bias value, Linear(rin,rout)(rho_rin(g)x) = rho_rout(g) Linear(rin,rout)(x).",
  "all w, b, x; all representations built from representations of one group and its elements, and all sums and products of base representations of several orthogonal groups and independently chosen elements of all of them", "Holds for all real parameters, not sampled ones.",
  [NN+":Linear"])
p("C31", "Bilinear weights are an equivariant function of the input",
  "For every parameter vector and every random choice of input components, W(x) produced by bilinear_weights satisfies W(rho_rin(g)x) = rho_rout(g)W(x)rho_rin(g)^-1, hence BiLinear(rho(g)x) = rho(g)BiLinear(x).",
  "all params, all index choices made by the RNG, all x, all g, all sum reps", "Universally quantified over RNG outcomes and parameters.",
  [RP+":bilinear_weights", NN+":BiLinear"])
p("C32", "Bilinear parameter vector is consumed exactly",
  "The number of parameters reported by bilinear_weights is exactly the number read by the projection, slices are disjoint and in range, and the produced matrix has shape (size rout, size rin).",
  "all sum reps", "All combinations of multiplicities.",
  [RP+":bilinear_weights"])
p("C33", "gated() appends exactly the gates and keeps the channels",
  "gated(rep) acts on its first rep.size() coordinates as rep and trivially on the appended ones, one per non-scalar non-permutation summand. On a product over several groups that is not a permutation representation, and on every sum containing one, gated raises AttributeError, so no EMLPBlock with such an output can be built.",
  "every sum representation of one group; every sum containing a product over several groups", "All summand combinations.",
  [NN+":gated"])
p("C34", "gate_indices points every channel at its own gate",
  "For a sum rep, every channel of a scalar or permutation summand is gated by itself and every channel of the j-th remaining summand by coordinate size+j; all indices are below gated(rep).size().",
  "every sum representation", "All summand combinations and orderings.",
  [NN+":gate_indices"])
p("C35", "The gated nonlinearity is equivariant",
  "GatedNonlinearity(rep) maps rho_gated(rep)(g)x to rho_rep(g) applied to the output for x, for any activation function and every g whose permutation-flagged reps act by permutation matrices.",
  "all x, g, all scalar functions in place of sigmoid, all sum reps", "Universally quantified.",
  [NN+":GatedNonlinearity"])
p("C36", "EMLP networks are equivariant end to end",
  "For any number of layers and any parameters, the EMLP network commutes with the group action: f(rho_in(g)x) = rho_out(g)f(x).",
  "all depths, parameters, hidden representations, inputs and group elements", "Unbounded depth and all parameters.",
  [NN+":EMLP", NN+":EMLPBlock"])
p("C37", "uniform_rep uses exactly the requested number of channels",
  "uniform_rep(ch,G) terminates and returns a representation of size exactly ch for every outcome of the random tensor-type draws (d>=1, ch>=1).",
  "all ch, d and all RNG outcomes", "All ch,d, RNG outcomes.",
  [NN+":uniform_rep", NN+":binomial_allocation", NN+":lambertW"])
p("C38", "lambertW returns the largest rank that fits",
  "lambertW(ch,d) is the largest r with (r+1)d^r <= ch (and -1 if none).",
  "all ch and d>=1", "All naturals.",
  [NN+":lambertW"])
p("C39", "Group augmentation does not change an equivariant model",
  "If the wrapped model is equivariant, GroupAugmentation returns the model's own output for every sample g; at test time it is the identity wrapper for every model.",
  "all models, inputs, samples", "All g.",
  [DS+":GroupAugmentation"])
p("C40", "EMLP layer widths chain",
  "For ch an int, a list or a rep, consecutive layers of EMLP have matching sizes and the network maps size(rep_in) inputs to size(rep_out) outputs.",
  "all ch specifications and depths", "All lists.",
  [NN+":EMLP"])

# ---------------------------------------------------------------- groups
p("C50", "Orthogonal and special orthogonal generators",
  "SO(n).lie_algebra has n(n-1)/2 antisymmetric elements forming a basis of all antisymmetric matrices, and every sample of SO(n)/O(n) satisfies g^T g = I (det 1 for SO).",
  "all n and samples", "All n.",
  [GR+":SO", GR+":O"])
p("C51", "Lorentz generators preserve the Minkowski form",
  "Every sample g of SO13p, SO13, O13/Lorentz (and of SO11p, O11) satisfies g^T eta g = eta with eta = diag(1,-1,..,-1); the infinitesimal generators span exactly the A with A^T eta + eta A = 0; samples of SO13p and SO11p have determinant 1 and keep the direction of time; samples of Parity and TimeReversal are the identity or the reflection.",
  "all samples", "All Gaussian coefficients and powers.",
  [GR+":SO13p", GR+":SO13", GR+":O13", GR+":SO11p", GR+":O11"])
p("C52", "Symplectic generators preserve the symplectic form",
  "Sp(m).lie_algebra spans exactly the matrices A with A^T J + J A = 0 and every sample satisfies g^T J g = J.",
  "all m and samples", "All m.", [GR+":Sp"])
p("C53", "SL, GL, U, SU generators",
  "SL(n): n^2-1 traceless generators spanning all traceless matrices, samples of determinant 1; GL(n): all n^2 matrix units; U(n): n^2 anti-Hermitian generators, samples unitary; SU(n): n^2-1 traceless anti-Hermitian generators, samples unitary of determinant 1.",
  "all n and samples", "All n.", [GR+":SL", GR+":GL", GR+":U", GR+":SU"])
p("C54", "S(n) generates all permutations, Z(n) the cyclic shifts",
  "The n-1 generators of S(n) are the transpositions (0 i) and generate every permutation matrix of size n; the generator of Z(n) has order exactly n.",
  "all n", "All n; generation is not observable by sampling.", [GR+":S", GR+":Z", LO+":LazyShift"])
p("C55", "The permutation flag is sound",
  "After construction, is_permutation is True only if is_orthogonal is True and there are no infinitesimal generators, and then, if the discrete generators are exactly orthogonal, every generator and every sample is a permutation matrix. Conversely a group given by permutation matrices gets both flags.",
  "all matrix sizes and generator lists", "All matrices.", [GR+":Group.__init__"])
p("C56", "The orthogonality flag agrees with orthogonality",
  "is_orthogonal is True exactly when all generators are orthogonal (antisymmetric for the Lie algebra).",
  "all generator lists", "A tolerance threshold separates the two only for extreme scales.", [GR+":Group.__init__", GR+":rel_err"])
p("C57", "Flags describe the generators the group ends up with",
  "After construction, is_permutation implies that all discrete generators of the group are permutation matrices.",
  "all groups and parameters", "Only particular parameters expose the order of initialisation.", [GR+":D", GR+":C", GR+":Group.__init__"])
p("C58", "Group equality identifies only groups with the same generators",
  "Two groups compare equal only if their generators are equal.",
  "all pairs of library groups", "Needs a search over constructor arguments.", [GR+":Group.__eq__", GR+":Group.__repr__", GR+":Embed"])
p("C59", "The Rubik's cube and Cube generators",
  "All six RubiksCube generators are permutations of the 48 stickers of order 4, opposite faces commute, and generated elements act on cubies (corner triples and edge pairs are never torn apart); the Cube generators generate only face permutations preserving opposite faces.",
  "every sequence of moves", "Unbounded move sequences.", [GR+":RubiksCube", GR+":Cube", GR+":pad", GR+":unpad"])
p("C60", "Direct product and embedded groups act as advertised",
  "Every sample of G1*G2 is kron(g1,g2) with g1, g2 in the generated groups; every sample of Embed(G,d,slice) is the block embedding of an element of G.",
  "all groups, dimensions and samples", "All samples.", [GR+":DirectProduct", GR+":Embed"])
p("C61", "Cyclic and dihedral groups in the plane",
  "C(k)'s generator is a rotation whose k-th power is the identity; D(k)'s generators satisfy the dihedral relation.",
  "all k>=1", "All k, exact real arithmetic.", [GR+":C", GR+":D"])
p("C62", "matrix_power_simple is the integer power",
  "matrix_power_simple(M,n) = M^n for n>=0 and (M^-1)^|n| for n<0.",
  "all n, all invertible M", "All n.", [GR+":matrix_power_simple"])
p("C63", "ZksZnxZn is the group of motions of a periodic grid and its linear layers are group convolutions",
  "For k in {2,4} the elements generated by ZksZnxZn(k,n) are exactly the translations of the periodic n x n grid combined with turns by multiples of 360/k degrees that also advance the orientation channel; the group is the semidirect product, has k*n^2 elements and takes every site to every other in exactly one way. The matrices that commute with it are exactly the group convolutions, and form a space of dimension k*n^2. Any other k raises AssertionError.",
  "all n>=1, k, group elements and weight matrices", "Unit tests check a few sizes; the claim ranges over all grids, all elements and all matrices.", [GR+":ZksZnxZn", LO+":Rot90", LO+":LazyShift"])

p("C41", "Bilinear layers treat batch rows independently",
  "Applied to a batch, a bilinear layer returns one row per input row, and each row is what the layer returns for that input row alone.",
  "all batches, parameters and random choices", "All batch sizes and contents.", [NN+":BiLinear", RP+":bilinear_weights"])

p("C42", "The four front ends build and compute the same networks",
  "For the same arguments, random choices and parameters, EMLP and Linear of objax, PyTorch, Flax and Haiku build the same layers (or raise alike) and compute the same function, row by row on batches; in each of them a batch of transformed inputs gives the batch of transformed outputs. torchify_fn yields the values of the wrapped jax function and the pullback as its backward pass.",
  "all front ends, arguments, parameters, batches and random choices", "Four code bases, all inputs.",
  [NN+":EMLP", "emlp/nn/pytorch.py:EMLP", "emlp/nn/pytorch.py:torchify_fn", "emlp/nn/flax.py:EMLP", "emlp/nn/haiku.py:EMLP"])

p("C43", "Standardize keeps equivariance exactly when its statistics respect the symmetry",
  "Standardize(model,(mu_in,sigma_in,mu_out,sigma_out)) around an equivariant model is equivariant whenever the shifts are fixed by the group and each scale is the same for all coordinates that the group mixes (zero shift and one scale per copy of a vector qualify, so the statistics of O5Synthetic, ParticleInteraction, Inertia and the pendulum do, from any data). "
  "With an ordinary mean vector, or one scale per coordinate, equivariance is lost. Wrapping a network whose call has no training argument (the PyTorch EMLP) always raises.",
  "all models, statistics, datasets, group elements and inputs", "All data and all group elements.",
  [NN+":Standardize", "emlp/nn/pytorch.py:Standardize", DS+":O5Synthetic", DS+":ParticleInteraction", DS+":Inertia"])

# ---------------------------------------------------------------- linear operators
p("C70", "Lazy operators act as their dense matrix",
  "For every well-shaped operator expression, op@v and op@V equal op.to_dense() times the vector/matrix, and shape mismatches raise instead of returning.",
  "every operator expression tree, all vectors", "Unbounded expression trees.",
  [LB+":LinearOperator", LO+":LazyKron", LO+":LazyKronsum", LO+":LazyDirectSum", LO+":ConcatLazy", LO+":LazyPerm", LO+":LazyShift"])
p("C71", "Adjoint and transpose of operators",
  "op.T and op.H are the dense transpose and conjugate transpose.",
  "every operator expression over real and complex scalars", "Complex and lazily nested cases.",
  [LB+":LinearOperator.adjoint", LB+":LinearOperator.transpose", LB+":Lazy", LO+":LazyDirectSum._adjoint"])
p("C72", "invT is the inverse transpose",
  "For every invertible operator expression op, op.invT() is the inverse of the transpose of op.",
  "every invertible operator expression", "Sums and scalings are wrong only off orthogonal operands.",
  [LB+":_SumLinearOperator.invT", LB+":_ScaledLinearOperator.invT", LB+":_ProductLinearOperator.invT", LO+":LazyKron.invT", LO+":LazyPerm.invT"])

p("C73", "rho, drho and constraint_matrix compute the matrices they denote",
  "For every representation built from Scalar, V(G) (or other representations of G) and duals with +, *, **, >> and integer multiples, and for products and sums over several groups in which C04 holds: "
  "rep.rho(M)@v, rep.rho(M)@X and rep.rho_dense(M), evaluated by the reshapes, transposes and loops of the operator classes, are the products with (and equal) the matrix built from M by Kronecker products, block diagonals and inverse transposes; "
  "rep.drho(A) likewise with Kronecker sums; and constraint_matrix()@v = 0 exactly when rho(h)v = v and drho(A)v = 0 for all generators.",
  "every such representation, every group or Lie algebra element given as arrays or operators, every vector and matrix of the right size",
  "The operator classes reshape in ways that agree by chance when all sizes are equal; representations are unbounded.",
  [RP+":Rep.rho_dense", RP+":Rep.drho_dense", RP+":Rep.constraint_matrix", RP+":Dual.rho", PS+":SumRep.rho", PS+":ProductRep.rho", PS+":DirectProduct.rho", PS+":SumRep.drho", PS+":ProductRep.drho", PS+":DirectProduct.drho"])
p("C74", "The operators returned as basis and projector compute",
  "After any history of calls, for Q = rep.equivariant_basis() and P = rep.equivariant_projector() over the reals: Q@c is invariant for every coefficient vector c; every invariant vector is Q@c for exactly one c; P@v is invariant for every v and equals v when v is invariant. "
  "The shapes, densify(Q), densify(P) and products with matrices agree with this.",
  "every representation as in C73, every generator set, every call history, every vector; products over several groups for which each factor has invariants",
  "Q and P are closures over permutations and nested operators; a wrong permutation or multiplicity shows only for particular nestings.",
  [RP+":Rep.equivariant_basis", RP+":Rep.equivariant_projector", PS+":SumRep.equivariant_basis", PS+":SumRep.equivariant_projector", PS+":DirectProduct.equivariant_basis", PS+":DirectProduct.equivariant_projector", LO+":lazy_direct_matmat"])

# ---------------------------------------------------------------- datasets, dynamics and training
p("C80", "Inertia labels are O(3)-equivariant",
  "For every orthogonal R, replacing all positions r_i by R r_i replaces the label I by R I R^T (T(2) transformation law), masses unchanged.",
  "all k, masses, positions and orthogonal R", "All reals.", [DS+":Inertia"])
p("C81", "O5Synthetic labels are O(5)-invariant",
  "The label is unchanged when both vectors are multiplied by the same orthogonal matrix.", "all vectors and orthogonal matrices", "All reals.", [DS+":O5Synthetic"])
p("C82", "ParticleInteraction labels are Lorentz-invariant",
  "The label is unchanged when all four momenta are multiplied by the same matrix preserving the Minkowski form.", "all momenta and Lorentz matrices", "All reals.", [DS+":ParticleInteraction"])
p("C83", "Broken cubes can never be solved",
  "No sequence of the group's moves takes the 'parity' states labelled 0 in InvertedCube and BrokenRubiksCube to the solved state labelled 1; scrambling keeps the label correct.",
  "every finite move sequence", "Reachability over a group of 4.3e19 elements.", [DS+":InvertedCube", DS+":BrokenRubiksCube"])
p("C84", "Hamiltonian vector fields",
  "unpack/pack are inverse on even-dimensional states and reject odd ones; J J = -1; the directional derivative of H along J grad H is zero.",
  "all states and gradients", "All reals.", [HD+":unpack", HD+":pack", HD+":symplectic_form", HD+":hamiltonian_dynamics"])
p("C85", "The double spring pendulum has the declared symmetry",
  "H(z) is unchanged when the two positions and two momenta are multiplied by a matrix of O(2) acting on the first two axes.", "all states, all O(2) elements", "All reals.", [HD+":DoubleSpringPendulum.H", GR+":O2eR3"])
p("C86", "Trajectory chunks have the requested length and count",
  "Every dataset element has chunk_len time points (matching its time grid) and the dataset has n_systems elements.",
  "all n_systems, batch sizes, trajectory lengths and chunk lengths", "Divisibility corner cases.", [HD+":HamiltonianDataset.chunk_training_data", HD+":HamiltonianDataset.generate_trajectory_data", HD+":HamiltonianDataset.__init__"])
p("C87", "Epoch accounting of the trainer",
  "train(n) performs exactly n passes, advances epoch by n, and uses consecutive step numbers across successive calls; train_to(e) ends with epoch e.",
  "every sequence of train/train_to calls", "History property with a zero-epoch corner case.", [TR+":Trainer.train", TR+":Trainer.train_to"])
p("C88", "Checkpoint is the best seen so far",
  "With an early-stop metric, after any history of logged values the checkpoint is the state at the most recent time the metric attained its best value; without one it is the latest state.",
  "every history of metric values", "History property.", [TR+":Trainer.logStuff"])
p("C89", "Averaged metrics",
  "evalAverageMetrics returns the mean of the per-minibatch metric values and raises on an empty loader; it equals the per-sample mean when all batches have equal size.",
  "all loaders", "All batch layouts.", [TR+":Trainer.evalAverageMetrics"])
p("C90", "Pytree conversions keep structure",
  "to_pytorch(to_jax(tree)) returns a tree of the same shape with every leaf converted independently and in place; minibatch_to likewise maps every leaf of nested containers exactly once.",
  "every nested container", "Unbounded nesting.", ["emlp/nn/pytorch.py:to_jax", "emlp/nn/pytorch.py:to_pytorch", "experiments/trainer/utils.py:minibatch_to"])
p("C91", "Hamiltonian networks give equivariant dynamics on phase space",
  "EMLPH.H (and so HNN energies) is invariant under the group when the output representation preserves the sum of entries (Scalar, sums of scalars, permutations). hamiltonian_dynamics of an invariant H commutes with the group wherever H is differentiable, if momenta transform by the dual of the positions; "
  "for orthogonal groups positions and momenta may be of the same type. For a group that is not orthogonal and rep_in = 2*V the dynamics need not be equivariant although H is invariant; with a vector output H need not be invariant. H of a batch is the sum over its rows. The double spring pendulum's dynamics commute with rotations and reflections about the vertical axis.",
  "all networks, parameters, groups, group elements, states", "All group elements, states and parameters.",
  [NN+":EMLPH", NN+":MLPH", HD+":hamiltonian_dynamics", HD+":DoubleSpringPendulum"])
p("C92", "Rollouts inherit symmetries and conserve energy and momenta",
  "With an exact integrator, the rollout (HamiltonianFlow, or odeint on EMLPode) of the transformed initial state is the transformed rollout whenever the field commutes with the matrix; the energy is the same at all states of a Hamiltonian rollout; if H is invariant under a one-parameter group acting on positions and dually on momenta, the corresponding momentum is conserved.",
  "all fields, initial states, time grids, matrices", "Continuous time; all states.",
  [HD+":HamiltonianFlow", HD+":BOdeFlow", NN+":EMLPode", NN+":MLPode"])
p("C93", "A batched rollout is the stack of the individual rollouts",
  "BOdeFlow(dynamics,z0,T) and BHamiltonianFlow return an array of shape (bs,len(T),n) whose row b is the rollout of z0[b], whatever the other rows are.",
  "all dynamics, batches and time grids", "All batches; coupling between rows through the integrator is invisible to small tests.",
  [HD+":BOdeFlow", HD+":BHamiltonianFlow"])

p("C94", "The equivariance errors measure what they say",
  "equivariance_error(W,rep_in,rep_out,G) is a number between 0 and 1 that is 0 exactly when every matrix in W commutes with every sampled element; it is nan for an empty basis, 0 whenever the representations are trivial, and arbitrarily small for a non-equivariant W scaled down. "
  "It is 0 for equivariant_basis of rep_in>>rep_out. rel_err is between 0 and 1, 0 exactly for equal arrays, nan when both vanish. equivariance_err of the trainers is 0 for every EMLP, batch and samples (nan only if all samples are the identity and the predictions vanish).",
  "all arrays W, representations, samples, networks, parameters and batches", "All samples of a continuous group; all weights.",
  [RP+":equivariance_error", RP+":scale_adjusted_rel_error", "experiments/trainer/model_trainer.py:equivariance_err"])
p("C95", "Rollout errors are geometric means",
  "exp(log_rollout_error) is the geometric mean over all rollouts and times of the relative error, each at least 1e-7: it lies in [1e-7,1], is 1e-7 for a perfect model, and is nan exactly when some predicted and true state both vanish. test_Rollout is the geometric mean of the values of the minibatches; an empty test loader raises.",
  "all rollouts, batches and loaders", "All states and batch layouts.",
  [HD+":log_rollout_error", HD+":log_rollout_error_ode", HD+":rel_err", HD+":IntegratedDynamicsTrainer.logStuff"])

p("C97", "sparsify_basis returns signs, and keeps the span only for bases that are signs up to scale",
  "Whatever its optimisation does, sparsify_basis(Q) returns an array whose entries are 0, 1 and -1 (and +-0.01 in the boundary case), the thresholded signs of Q W^T for the W found. If every column of Q W^T is 0 and +-c for one c > 0.01, and W is invertible, the columns returned span the same space as those of Q; in general they do not. "
  "It returns if some attempt within the recursion limit keeps its loss at most 100 after step 100, and otherwise raises RecursionError.",
  "all bases, optimisation histories and recursion limits", "All outcomes of a random optimisation.", [RP+":sparsify_basis"])
p("C98", "Training losses and test metrics",
  "The regression loss is the mean over all entries of the squared difference when labels have the shape of the predictions, zero only for equal arrays, and unchanged when inputs and labels are moved by group elements, for an equivariant model and orthogonal output representations; for labels without their last axis each prediction is compared with every label of the batch, so that perfect predictions have a positive loss. "
  "The classification loss is the mean of -log p(label) with p the softmax of the logits; accuracy is the share of rows whose label is the first largest logit; both ignore constants added to a row. The label -1 is the last class for the loss and never correct for the accuracy.",
  "all batches, logits, labels, shapes", "All batches and shapes; broadcasting errors are silent.",
  ["experiments/trainer/classifier.py:cross_entropy", "experiments/trainer/classifier.py:Classifier", "experiments/trainer/classifier.py:Regressor", "experiments/trainer/model_trainer.py:RegressorPlus"])
p("C99", "A network is built for the symmetry of its own dataset",
  "makeTrainer(dataset=...) without an explicit group builds the network for the symmetry group of the dataset, in every history of calls.",
  "all sequences of calls in one process", "The default configuration is shared by all calls of a process, so that the result depends on the history.",
  ["experiments/train_regression.py:makeTrainer"])
p("C100", "Which cube states the turns connect",
  "The turns of RubiksCube generate exactly the permutations that move corner stickers to corner stickers arbitrarily and edge stickers to edge stickers by an even permutation; two states with six colours are connected by turns if and only if every colour appears on equally many corner stickers and on equally many edge stickers; in particular flipping an edge, rotating a corner or swapping two edge stickers (UBedge_flip, ULBcorner_rot, LBface_swap, in all twelve combinations) always leads to a state that turns reach, and an invariant classifier sees nothing but the colour counts.",
  "all sequences of turns, all states", "The group has 24!*24!/2 elements.",
  [GR+":RubiksCube", DS+":BrokenRubiksCube", DS+":UBedge_flip", DS+":ULBcorner_rot", DS+":LBface_swap"])
p("C101", "The trivial and the scaling group",
  "Trivial(n) has no generators and generates and samples only the identity, so that it imposes no constraint; Scaling(n) generates and samples exactly the positive multiples of the identity and is not mistaken for an orthogonal group.",
  "all n, all samples (non-orthogonality for 1 <= n <= 10^9)", "All dimensions and all random draws.", [GR+":Trivial", GR+":Scaling", GR+":Group.__init__"])
p("C102", "Items of a trajectory dataset solve Hamilton's equations, and the rollout loss measures exactly the deviation",
  "When the number of evaluation times of a trajectory is a multiple of chunk_len, ds[i] = ((z0,T),target) where T is 0, dt, ..., (chunk_len-1)dt and target is the solution of Hamilton's equations from z0 at those times, although it was cut from the middle of a longer rollout; its energy is constant. The loss of the HNN and neural ODE trainers is the mean squared difference to the targets and vanishes exactly for perfect rollouts, so the true Hamiltonian has loss zero on every minibatch. If the model is invariant, moving states and targets by symplectic orthogonal symmetries does not change the loss.",
  "all Hamiltonians with locally Lipschitz field, initial conditions, chunk draws, minibatches and symmetries", "Quantifies over all trajectories, random chunk positions and minibatches.", [HD+":HamiltonianDataset", HD+":IntegratedDynamicsTrainer.loss", HD+":IntegratedODETrainer.loss"])

p("C103", "A user-defined representation needs nothing but rho",
  "Let a subclass of Rep define rho(M), multiplicative on its group and differentiable at the identity. Then the inherited drho(A) is the operator with matrix d/dt rho(1+tA) at t=0, on vectors, matrices and in dense form; it is linear in A, rho(exp A) = exp(drho(A)) on the Lie algebra, and drho(A)v = 0 holds exactly for the v fixed by all rho(exp(tA)), so that the solver's constraints mean invariance. In particular for the documented SO2Irreps(k) drho(A) = kA, and (psi_p>>psi_q).equivariant_basis() is empty for p != q and has two elements for p = q; for PseudoScalar drho = 0. The same holds for the dual of such a representation.",
  "all differentiable representations, Lie algebra elements, vectors, orders", "All representations a user can define and all group elements.",
  [RP+":Rep.drho", LO+":LazyJVP", RP+":Dual.drho", "docs/notebooks/4new_representations.ipynb"])

p("C106", "The test sets of the cube datasets are balanced, lie in the orbits of the training states, and are labelled by solvability",
  "Whatever group elements are drawn and however the items are shuffled, the test sets of InvertedCube and BrokenRubiksCube contain each label equally often (50 and 220 times); every test item is rep_in.rho(g) of a training item with the same label for some element g of the dataset's symmetry; and an item is labelled 1 exactly if some element of the symmetry takes it to the solved state.",
  "all draws of group elements, all shufflings, all items, all group elements", "All sequences of random draws and all elements of a group of more than 10^46 elements.",
  [DS+":InvertedCube", DS+":BrokenRubiksCube", GR+":Cube", GR+":RubiksCube"])

p("C104", "Linear layers compute all equivariant affine maps and nothing else, for each group the known family",
  "Let Linear(repin,repout) be built after any history of calls. As its weight and bias vary, the functions it computes are exactly the affine maps that commute with all elements of the group. For V -> V these are x -> Mx+c with M commuting with the generators and c fixed, and (V>>V).equivariant_basis() has as many columns as this space of matrices has dimensions: 1 (multiples of the identity) for SO(n>=3), O(n), Sp(m), GL(n), SL(n), U(n), SU(n>=2), SO13p, SO13, O13, O11, D(k>=3); 2 for SO(2), C(k>=3), SO11p and S(n>=2); 3 for Cube; 6 for RubiksCube; n for Z(n); k n^2 for ZksZnxZn(k,n); n^2 for Trivial(n) and Scaling(n). For S(n) the layers are exactly ax + b sum(x) + c, for Z(n) exactly the circular convolutions with constant bias.",
  "all representations, histories, weights and biases, affine maps, and all dimensions of each group", "That no equivariant map is missing is a statement about all maps, and the parameter counts hold for every dimension.",
  [NN+":Linear", RP+":Rep.equivariant_basis", RP+":Rep.equivariant_projector", GR+":SO", GR+":S", GR+":Z", GR+":Cube"])

p("C105", "Constructing a trajectory dataset again gives the same data, whatever else runs and wherever a process is killed",
  "Once a HamiltonianDataset has been constructed, every construction of the same class with the same arguments and without regen=True returns the same data; a construction is never given the data of another class or of other arguments; and this holds however many constructions run at the same time, in whatever order their steps interleave, and wherever any of them is killed.",
  "all schedules of any number of processes, all crash points, all arguments and file contents", "Interleavings and crash points are unbounded in number.",
  [HD+":HamiltonianDataset.__init__"])

p("C107", "Threads may solve for bases and projectors at the same time",
  "If several threads of a process call equivariant_basis() and equivariant_projector(), on any representations and in any interleaving, then every returned basis is an orthonormal basis of the invariants, every returned projector is the orthogonal projector onto them and is the same matrix in all threads and all runs, no call raises because of the shared cache, no thread waits for another, and a thread that repeats a call gets the same matrix again.",
  "all numbers of threads, all call sequences, all interleavings of the dictionary operations, all correct null space routines (also randomised ones)", "Interleavings are unbounded in number and not controllable from a test.",
  [RP+":Rep.solcache", RP+":Rep.equivariant_basis", RP+":Rep.equivariant_projector", PS+":SumRep.equivariant_basis", PS+":DirectProduct.equivariant_basis"])

p("C109", "Training trials report their outcome or their failure, and keep their files apart",
  "Calling hnn_trial or ode_trial with a configuration returns the outcome of the training exactly if every stage succeeded, and has then written one file with the rollouts of all test minibatches, named after network, group and trial number; a trial that failed has written nothing. With strict=True the exception is raised, with strict=False it is returned as the outcome and no exception leaves the trial. Trial i logs under trial{i}/, save=True additionally stores the trainer, and different trials write different files.",
  "all configurations, trial numbers, trainers, training and rollout results, failures at any stage, and all sequences of trials on one configuration", "A failure may occur at any of the stages, with any exception; the log directory depends on the whole history of trials.",
  [HD+":hnn_trial.__call__", HD+":ode_trial.__call__"])

p("C108", "Animations show the trajectories, with springs that join the bobs",
  "Every dataset can be animated, for every trajectory and any number of bodies: frame i marks each body at its position at time i, with a trail of its latest positions (at most 151), all positions lie inside the axes, and for the spring pendulum each frame has, per bob, a helix with ten turns of the given radius from the previous bob (the origin for the first) exactly to this bob.",
  "all trajectories, frames, numbers of bodies and positions of the bobs", "A test can look at some frames; the claim is about every position of the bobs, including the singular ones.",
  [HD+":HamiltonianDataset.animate", HD+":Animation.__init__", HD+":Animation.update", HD+":CoupledPendulumAnimation.update", HD+":helix", HD+":align2ref"])

p("C110", "With null spaces computed up to a threshold, the equivariance error is bounded by the threshold",
  "The null spaces behind bases are computed up to singular values of size eps (1e-5 for the SVD route), so bases are not exactly equivariant in general. Nevertheless: (1) after any history of calls, equivariant_basis() of any representation (sums, products, products over several groups) has orthonormal columns whose span contains every invariant vector, and each vector v of the span is moved by at most eps|v| by each discrete generator and is mapped to something of length at most eps|v| by each Lie algebra generator: errors of the factors do not add up or multiply; the same holds for everything equivariant_projector() maps a vector to, and a real projector never makes a vector longer; (2) for a group that acts orthogonally, an element that is a product of exponentials of combinations of the Lie algebra and of powers of discrete generators moves v by at most kappa*eps|v|, where kappa is the sum of the absolute values of all coefficients and powers; in particular every matrix returned by samples() does, with kappa computed from the random numbers drawn; (3) a Linear layer of such a group, built after any history, commutes with such an element up to kappa*eps*(|w||x|+|b|) for all weights, biases and inputs.",
  "all representations, generators, solver outcomes within the threshold, histories of calls, group elements, weights, biases and inputs",
  "tests compare a few sampled elements against a tolerance chosen by hand; they cannot bound the error over all elements and representations, nor show that assembling bases of sums and products does not amplify the error of the numerical routine",
  [RP+":Rep.equivariant_basis", RP+":Rep.equivariant_projector", RP+":orthogonal_complement", PS+":SumRep.equivariant_basis", PS+":DirectProduct.equivariant_basis", GR+":Group.samples", GR+":noise2sample", NN+":Linear"])

p("C111", "Networks and training losses are smooth functions of inputs and parameters",
  "An equivariant network is a differentiable function: jointly in the input and in all trainable parameters its output is as often continuously differentiable as the activation of its gates, analytic for the library's sigmoid, and whether a call raises does not depend on the values of the input or the parameters, only on the shapes. In every front end, the mean squared error of the predictions on a batch is such a function of the parameters, so the gradients used in training exist everywhere.",
  "all networks, inputs, parameters, smooth ways to vary them, batches, labels, front ends, orders of differentiability",
  "a test can evaluate finitely many gradients; existence of derivatives at every point, and that no value of the parameters raises, are statements about a continuum",
  [NN+":Linear", NN+":BiLinear", NN+":GatedNonlinearity", NN+":EMLPBlock", NN+":EMLP", "experiments/train_regression.py:makeTrainer"])

p("C112", "Learned dynamics have unique symmetric rollouts, with exact conservation laws",
  "For an EMLPode and an EMLPH (on a representation of phase space) with any parameters, nothing has to be assumed about the learned field: it is locally Lipschitz, so that from every state there is a rollout for some time and never two of them. Wherever the states of a batch have rollouts up to the requested times, an integrator that returns the rollout when there is one makes BOdeFlow and HamiltonianFlow return them, and transformed by the group for transformed initial states. Along a rollout of an EMLPH the learned energy is constant, and so is, for each element of the Lie algebra of the group, the momentum p.Xq that belongs to it (Noether), for instance the angular momentum about each axis in the group.",
  "all networks, parameters, initial states, batches, times, group elements and Lie algebra elements",
  "a test integrates a few trajectories numerically and sees conservation only up to the integration error; uniqueness, and conservation for all parameters, cannot be sampled",
  [NN+":EMLPode", NN+":EMLPH", HD+":HamiltonianFlow", HD+":BOdeFlow", HD+":hamiltonian_dynamics"])

p("C113", "Whole networks are equivariant up to a constant times the solver threshold, whatever the solver does",
  "Take EMLP(rep_in, rep_out, G, ch, num_layers) for an orthogonal group, with the sigmoid or any other continuously differentiable activation. For all bounds on the parameters and on the input there is a constant K, depending on the arguments, the bounds, the random draws and the group remembered by Scalar but neither on the threshold eps of the null space routine, nor on which bases the routine returns, nor on the history of earlier calls, such that: if the network returns y on x, then on rho_in(h)x it returns a vector at distance at most K*kappa*eps from rho_out(h)y for every product h of exponentials of the Lie algebra and of discrete generators of size kappa, in particular for every matrix returned by samples(). Making the null space routine more accurate therefore makes the network as equivariant as desired.",
  "all arguments, bounds, parameters, inputs, thresholds, solver outcomes within the threshold, histories of calls, and group elements",
  "an equivariance test measures the error of one network on some samples; a bound that is uniform over parameters, inputs, histories and all outcomes of the numerical routine cannot be sampled",
  [NN+":EMLP", NN+":EMLPBlock", NN+":Linear", NN+":GatedNonlinearity", RP+":Rep.equivariant_basis", RP+":orthogonal_complement", GR+":Group.samples"])

p("C114", "The baseline networks use representations for shapes only, and their learned dynamics never blow up",
  "MLP(rep_in,rep_out,group,ch,num_layers) returns, in every front end, a network with the layers size(rep_in) -> ch -> ... -> ch -> size(rep_out). With parameters of these shapes it maps every batch of inputs of the size of rep_in to as many outputs of the size of rep_out, each output depending on its own input only, by the same function in all front ends (weights transposed for torch); inputs of another size raise. The function is analytic in inputs and parameters and Lipschitz on the whole space. Therefore an MLPode and an MLPH, with any parameters, have exactly one rollout from every state at all later times, which BOdeFlow and HamiltonianFlow return if the integrator does, and the energy of an MLPH is constant along it. But for every group element that acts non-trivially on inputs or outputs there are parameters for which the network does not commute with it.",
  "all representations, widths, depths, parameters, inputs, batches, front ends, initial states, times and group elements",
  "existence of rollouts for all times, Lipschitz bounds and the agreement of four implementations for all parameters are statements about a continuum",
  [NN+":MLP", NN+":MLPBlock", NN+":swish", NN+":MLPode", NN+":MLPH", "emlp/nn/pytorch.py:MLP", "emlp/nn/flax.py:MLP", "emlp/nn/haiku.py:MLP"])

p("C115", "Each group class generates exactly the group it is named after",
  "The products of exponentials of real combinations of the Lie algebra of a group object, of its discrete generators and of their inverses are: for SO(n) exactly the orthogonal matrices of determinant one, for O(n) exactly the orthogonal matrices, for Sp(m) the symplectic matrices, for SL(n) the matrices of determinant one, for U(n) the unitary matrices, for SU(n) the unitary matrices of determinant one, for SO13p the proper orthochronous Lorentz transformations, for SO13 those of determinant one, for O13 all Lorentz transformations, and likewise SO11p and O11 in the plane. GL(n) has no discrete generator and generates exactly the matrices of positive determinant. So a network built for one of these groups is equivariant under every element of the group, not only under those that are sampled.",
  "all sizes n and all matrices; for the networks, all representations, parameters and inputs",
  "sampling shows that some products are in the group; that nothing of the group is missed is a statement about all its elements",
  [GR+":SO", GR+":O", GR+":Sp", GR+":GL", GR+":SL", GR+":U", GR+":SU", GR+":SO13p", GR+":SO13", GR+":O13", GR+":SO11p", GR+":O11", NN+":EMLP"])

p("C116", "The classical group objects: accepted sizes, dimension, flags and elements",
  "SO(n) for n>=2, O(n) for n>=1, Sp(m) for m>=1, GL(n) for n>=1, SL(n) for n>=2, SO13p, SO13, O13, SO11p, O11, Parity and TimeReversal are constructed with the dimension of their matrices (2m for Sp(m)); is_orthogonal is True for the orthogonal groups, Parity and TimeReversal and False for the others (sizes up to a million), is_permutation is never True; and the generators stored in the object generate exactly the named group. SO(0), SO(1), GL(0), SL(1), Sp(0) raise TypeError, SL(0) ValueError, O(0) IndexError. U(n) for n>=1 and SU(n) for n>=2 are constructed with is_orthogonal False (sizes up to 900000), so that V and its dual stay different, and generate exactly the unitary matrices, of determinant one for SU(n); U(0) and SU(1) raise TypeError, SU(0) ValueError. O2eR3() generates exactly the orthogonal matrices of space that fix the vertical axis, SO2eR3() those of determinant one among them, and DkeR3(k) the 2k rotations and reflections.",
  "all sizes and all matrices",
  "tests construct some sizes and draw some samples; flags for every size and the exact generated set are universal statements",
  [GR+":Group.__init__", GR+":SO", GR+":O", GR+":Sp", GR+":GL", GR+":SL", GR+":SO13p", GR+":SO13", GR+":O13", GR+":SO11p", GR+":O11", GR+":Parity", GR+":TimeReversal", GR+":SO2eR3", GR+":O2eR3", GR+":DkeR3", GR+":Embed", GR+":U", GR+":SU"])

p("C117", "Layers and networks for GL, Scaling, SO13p and SO11p respect the whole group, not only what the class generates",
  "GL(n), Scaling(n), SO13p() and SO11p() generate only the matrices of positive determinant, the positive multiples of the identity and the "
  "proper orthochronous Lorentz matrices.  Still, everything the solver finds for them is invariant under all invertible matrices, all nonzero "
  "multiples of the identity, and all Lorentz matrices of determinant one respectively; every linear layer and every network built for them "
  "commutes with all of those, for all parameters.  So SO13() and SO13p() give the same equivariant maps, and no network built for SO13p() can "
  "tell a vector field from its time- and space-reversed copy.  User-defined representations must be polynomial in the entries of the matrix and "
  "of its inverse; for the sign of the determinant the claim is false.",
  "all sizes n, representations, matrices of the whole group, layers, networks, parameters and histories of calls",
  "equivariance_error samples only matrices that the class generates, and there are infinitely many others",
  [GR + ":GL", GR + ":Scaling", GR + ":SO13p", GR + ":SO13", GR + ":SO11p", RP + ":Rep.equivariant_basis", NN + ":Linear", NN + ":EMLP"])

p("C118", "Below rank n, a network built for SO(n) cannot tell rotations from reflections",
  "Give a representation the number of vector indices of its largest summand as rank.  In rank less than n, SO(n) and O(n) have the same "
  "invariants: everything equivariant_basis finds for SO(n) is invariant under every orthogonal matrix.  A linear layer built for SO(n) between "
  "representations whose ranks add up to less than n commutes with every orthogonal matrix, and so does a network in which this holds for "
  "consecutive representations, for all parameters.  So such a network cannot represent a function that depends on handedness.  The bound is "
  "sharp: for SO(2) there is a layer V -> V that does not commute with reflections.",
  "all sizes n, representations, orthogonal matrices, layers, networks, parameters and histories of calls",
  "equivariance_error samples only the rotations; which reflections a layer also respects, for every rank and size, is not a finite check",
  [GR + ":SO", GR + ":O", RP + ":Rep.equivariant_basis", NN + ":Linear", NN + ":EMLP"])

p("C119", "What samples() can return, and what it cannot",
  "G.samples(N) returns N elements of the group, G.sample() one.  Every rotation can come out of SO(n).sample(), every orthogonal matrix out of "
  "O(n).sample(), every unitary matrix out of U(n).sample(), every unitary matrix of determinant one out of SU(n).sample(), every positive multiple of the identity out of Scaling(n).sample() and every proper "
  "orthochronous Lorentz matrix of the plane out of SO11p().sample(); the noise scale of SO13p does not change what can come out.  But the sampled "
  "powers of a discrete generator are limited: Z(n) and C(k) return exactly the shifts by -15 to 12 places (rotations by -15 to 12 steps), which is "
  "all of them exactly if n (k) is at most 28; D(k) returns all its elements if k is at most 28 and not all if k is at least 32; a group with M discrete "
  "generators of order m returns at most 100 m^(3M) elements, so S(n) does not return all permutations if n is at least 22; and GL(n), SL(n) and Sp(m) "
  "have elements that are never sampled.",
  "all n, N, draws of the random generators and matrices",
  "Which elements have probability or density zero cannot be seen in any finite number of samples.",
  [GR + ":Group.samples", GR + ":Group.sample", GR + ":noise2sample", GR + ":noise2samples", GR + ":matrix_power_simple", GR + ":SO", GR + ":O", GR + ":U", GR + ":Z", GR + ":C", GR + ":GL", GR + ":SL", GR + ":Sp", GR + ":SO13p"])

p("C120", "Operators made from functions, and the arithmetic of operators, act like the matrices they stand for",
  "For LinearOperator(shape,matvec=f,...) where f multiplies vectors of shape (N,) and (N,1) by a matrix A: op@v is A v, op@V is A V for every V, "
  "op.to_dense() is A; with an rmatvec that multiplies by the conjugate transpose, op.H is an operator of the same kind, op.rmatvec, op.rmatmat and "
  "op.H multiply by it and op.T by the transpose, and op.H.H is op; without one, every product with op.H or op.T raises.  Arrays of other shapes "
  "raise.  -A, A+B, A-B, A+x and A-x for operators A, B and arrays x stand for the negative, the sums and the differences, or raise if the shapes "
  "differ.  SwapMatrix(rows,n) reverses the listed rows and is its own transpose and inverse; MatrixLinearOperator and IdentityOperator multiply by "
  "the matrix and by the identity.",
  "all shapes, matrices over any commutative ring with conjugation, functions that meet the documented contract, vectors and matrices",
  "the contract of f is about all vectors, and operators can be combined without bound",
  [LB + ":LinearOperator", LB + ":_CustomLinearOperator", LB + ":LinearOperator.__add__", LB + ":LinearOperator.__neg__", LB + ":LinearOperator.__sub__", LB + ":MatrixLinearOperator", LB + ":IdentityOperator", LO + ":SwapMatrix"])

p("C121", "Training an equivariant network does not see where the data stand",
  "Let a network be built by EMLP in any front end for an output representation that is orthogonal on the group (all representations of a group flagged "
  "orthogonal, scalars for any group).  Move every input by rep_in(h) and its label by rep_out(h), with a group element h chosen anew for each row of each "
  "minibatch of each epoch and for the test data.  Training by Regressor then ends with the same parameters and optimizer state, and logs the same metrics "
  "at the same steps, or raises the same.  So does training by Classifier, for a network with scalar outputs, when the inputs move and the classes stay.  For data whose labels are an equivariant function of the inputs, as in Inertia, O5Synthetic and ParticleInteraction, moving the "
  "inputs and computing the labels again is such a move.  Wrapping the network in GroupAugmentation also leaves the whole training run unchanged.",
  "all groups, networks, initial parameters, optimizers and ways of differentiating, learning rate schedules, data, group elements, shuffles, logging times, sequences of train and train_to",
  "training runs are unbounded histories, and a test can only compare two runs up to rounding for a few group elements",
  [TR + ":Trainer.step", TR + ":Trainer.train", TR + ":Trainer.logStuff", "experiments/trainer/classifier.py:Regressor", NN + ":EMLP", DS + ":GroupAugmentation"])

p("C122", "Training learned dynamics on trajectories does not see the symmetry",
  "Let EMLPode be trained by IntegratedODETrainer, or EMLPH by IntegratedDynamicsTrainer, on a representation that is orthogonal on the group.  Move every trajectory "
  "(initial state and all later states) by a group element, chosen anew for each row of each minibatch of each epoch and for the test data.  Training then ends "
  "with the same parameters and optimizer state and logs the same losses and the same test_Rollout at the same steps, or raises the same; provided the true dynamics have the symmetry.",
  "all groups, networks, initial parameters, optimizers and ways of differentiating, learning rate schedules, trajectories, group elements, integrators that commute with orthogonal symmetries of the "
  "field, shuffles, logging times, sequences of train and train_to",
  "training runs are unbounded histories of numerical integrations, and a test can only compare two runs up to rounding for a few group elements",
  [HD + ":IntegratedDynamicsTrainer", HD + ":IntegratedODETrainer", HD + ":log_rollout_error", HD + ":log_rollout_error_ode", TR + ":Trainer.train", NN + ":EMLPode", NN + ":EMLPH"])

p("C123", "Training does not depend on the order of the rows in a minibatch, nor metrics on the order of the test data",
  "Let a model that computes each row of its output from the same row of its input, as the EMLP networks of all front ends do, be trained by Regressor or by Classifier.  Give the rows of every "
  "minibatch (with their labels) in another order, and the minibatches of the test loaders in another order too.  Training then ends with the same parameters and optimizer state and logs the same "
  "losses, accuracies and epochs.  Only which rows share a minibatch matters.",
  "all row-wise models, parameters, optimizers and ways of differentiating, schedules, data, reorderings of each minibatch and each test loader, sequences of train and train_to",
  "the orders of a minibatch are factorially many and differ in every epoch",
  ["experiments/trainer/classifier.py:Regressor", "experiments/trainer/classifier.py:Classifier", TR + ":Trainer.evalAverageMetrics", TR + ":Trainer.train", NN + ":EMLP"])

p("C124", "Gradients of an equivariant layer are equivariant, and training ignores what the layer projects away",
  "Linear layers take unconstrained weights and project them.  For every loss that depends on a layer through the function it computes, the gradient with respect to the weight is an equivariant "
  "matrix and that with respect to the bias an invariant vector, at all weights and biases, projected or not.  So gradient descent, with any losses and learning rates, changes weight and bias by equivariant matrices and invariant "
  "vectors only: the rest keeps its initial value.  Networks with parameters that differ by what the projectors remove compute the same, in all front ends; and training from such parameters, with "
  "any optimizer that adds its updates to the parameters, gives the same log, epochs and optimizer state, and in the end parameters that differ by the same amount.",
  "all groups, pairs of representations and call histories, all losses, weights and biases, learning rates and numbers of steps; for training runs all networks, front ends, data, schedules and sequences of train and train_to",
  "it is a statement about derivatives at all weights for all groups, and about all training runs",
  [NN + ":Linear", NN + ":EMLP", RP + ":Rep.equivariant_projector", TR + ":Trainer.step", "experiments/trainer/classifier.py:Regressor"])

p("C125", "Trainers that log the equivariance error train the same, and log 0 for equivariant networks",
  "RegressorPlus and ClassifierPlus log test_equivar_err besides the metrics.  This does not change training: parameters, optimizer state, epochs and the other rows of the log are those of Regressor and Classifier, "
  "or the run raises what computing the error raised (KeyError if there is no test loader or it is empty).  In every run, every logged value is 0 for a network EMLP, also inside Standardize with statistics that respect the group "
  "(or nan, if all elements sampled for some minibatch are the identity).  Whatever the model, the value is between 0 and 1, and 0 exactly if the model commutes with the sampled elements on the minibatches 0, 5, 10, ... of the test loader.  "
  "Standardize acts on each row of a batch separately, and training Standardize(EMLP) on moved data gives the same result.",
  "all models, optimizers, data, group samples, schedules and sequences of train and train_to; for networks all groups, representations, channels and parameters",
  "the logged values are claims about all training runs and samples of a group; tests see one run with rounding",
  ["experiments/trainer/model_trainer.py:RegressorPlus", "experiments/trainer/model_trainer.py:ClassifierPlus", "experiments/trainer/model_trainer.py:equivariance_err", NN + ":Standardize", TR + ":Trainer.evalAverageMetrics"])

p("C126", "A training run computes the optimizer's recursion over the minibatches, whatever is logged and however it is divided",
  "A run of train and train_to that returns has applied the optimizer once for each minibatch of each epoch asked for, in order, with the gradient of the loss on this minibatch at the parameters so far and the learning rate "
  "lr_sched(epoch+i/steps_per_epoch).  Logging times, metrics, other data and the division into calls (each for at least one more epoch) change neither parameters nor optimizer state.  Each row of the log is computed at "
  "parameters of this recursion, the last one at the final parameters; it has the entry loader_metric for each metric and each loader that has minibatches and is not train or private, equal to the mean of the metric over the minibatches "
  "whatever batch_size is, nan if one value is nan.  If the run raises, then the optimizer raised in the recursion, or logging at parameters of the recursion, or a call asked for less than already trained.",
  "all models, losses, optimizers, learning rate schedules, data, logging times and sequences of calls",
  "tests run a few steps of one trainer; the claim is about all histories of calls and all logging times, which depend on the wall clock",
  [TR + ":Trainer.train", TR + ":Trainer.train_to", TR + ":Trainer.step", TR + ":Trainer.logStuff", TR + ":Trainer.evalAverageMetrics", "experiments/trainer/classifier.py:Regressor"])

p("C127", "For finite groups the number of basis elements is the average of the character, for permutation groups the number of orbits on tuples",
  "For a group with finitely many elements, the number of columns of equivariant_basis() of any expression in representations of this group is the average over the group of the character, computed from the traces of the "
  "representations named in the expression and of their inverses by the rules for sums, products, powers, duals and maps.  For a group of permutations, V**p>>V**q has as many basis elements as the group has orbits on tuples of "
  "p+q indices; for S(n) these are the partitions of p+q indices into at most n classes, for Z(n) there are n**(p+q-1).  This holds after any history of calls.",
  "all finite groups, expressions, orders p and q, sizes n >= 2 and histories of calls",
  "tests count the basis elements of a few representations; a lost or superfluous basis element shows only for the orders and sizes that are tried",
  [RP + ":Rep.equivariant_basis", PS + ":SumRep.equivariant_basis", RP + ":Rep.__pow__", RP + ":Rep.__rshift__", GR + ":S", GR + ":Z"])

p("C128", "Networks cannot break symmetry, and multiples of the identity in the group make them homogeneous, constant, linear or zero",
  "Whatever group element fixes the input of an EMLP fixes its output.  If t times the identity is in the group, then a network from representations of degree p to representations of degree q (tensors of order p and q, duals "
  "counting negatively) satisfies f(t**p x) = t**q f(x); so it is zero for all parameters if t**p = 1 and t**q != 1 (with t = -1: from even to odd orders for O(n), SO(2m), Sp(m), SO13, O13, O11), and likewise equivariant_basis() of a "
  "representation of degree d is empty if t**d != 1.  For Scaling(n) and GL(n) with a differentiable activation, the network is constant if q = 0, zero if q/p is negative or strictly between 0 and 1, and a linear function of its input if q = p.",
  "all groups, representations of the given degrees, widths, parameters, inputs and histories of calls",
  "that a configuration can only produce zero, constant or linear functions cannot be seen from runs on some inputs and parameters; the statements say so for all of them",
  [NN + ":EMLP", NN + ":Linear", RP + ":Rep.equivariant_basis", GR + ":Scaling", GR + ":GL", GR + ":O", GR + ":Sp"])

p("C129", "A network is determined by its arguments and random draws: solver and history have no influence",
  "Two EMLP networks built from the same arguments with the same random draws (and the same group remembered by Scalar) have the same hidden representations and compute the same output for all parameters and inputs, although the "
  "numerical null space routine may differ between the two (SVD or iterative, with other random starts), the bases it finds may differ, and so may everything computed and cached before.  The matrices returned by equivariant_basis() in two such programs "
  "have the same number of columns and differ by a unitary matrix of coefficients.",
  "all groups, representations, widths, pairs of correct numerical routines, pairs of histories of calls, parameters and inputs",
  "a test compares two runs on one machine with one solver; that trained parameters can be used with another solver, another cache or another history of calls is a statement about all of them",
  [NN + ":EMLP", NN + ":Linear", RP + ":Rep.equivariant_basis", RP + ":Rep.equivariant_projector", RP + ":krylov_constraint_solve", RP + ":orthogonal_complement"])

p("C130", "The determinant tensor: what distinguishes orientation-preserving groups appears exactly at rank n",
  "Among the tensors V**n over a group of n x n matrices there is a nonzero one that every matrix multiplies by its determinant.  So whenever all elements of a group have determinant one (SO(n), SL(n), Sp(m)), the span of "
  "V**n's equivariant_basis() contains a tensor that is moved by every matrix of another determinant, e.g. every reflection: such a group and its extension by reflections are told apart at rank n, and the bound of C118 cannot be improved, in any dimension.  "
  "For SL(n), (V**p >> V**q).equivariant_basis() has no columns unless n divides q - p, and V**n's has exactly one.",
  "all dimensions n >= 2, groups of determinant one, all matrices h, orders p and q, histories of calls and solvers that fulfil their contract",
  "a test counts the columns for a few small n, p, q; the Levi-Civita tensor has n^n entries, out of reach of tests for moderate n",
  [RP + ":Rep.equivariant_basis", PS + ":ProductRep", GR + ":SL", GR + ":SO", RP + ":Rep.__pow__"])

p("C131", "The choice of coordinates and of generators does not matter",
  "Giving a group by other generators (other multiples, combinations or products) gives the same networks: with the same arguments and random draws EMLP(...) has parameters of the same shapes and returns the same outputs for the same parameters.  "
  "Giving the group in other orthonormal coordinates (generators P A P^-1) gives the same networks in those coordinates: moving the parameters, the input and the output by the matrices of their representations, one network becomes the other.  "
  "In any other coordinates, every equivariant_basis() has as many columns and spans the same tensors, in the new coordinates.",
  "all groups, representations, changes of coordinates, generators of the same group, arguments, parameters, activations, inputs, histories of calls, random draws and solvers that fulfil their contract",
  "a test compares a few generators of one group numerically; solvers return different bases for different generators, so only the function of the network can be compared, for all parameters",
  [RP + ":Rep.equivariant_basis", RP + ":Rep.equivariant_projector", NN + ":EMLP", NN + ":Linear", GR + ":Group"])

p("C132", "The number of basis elements follows the rules of representation theory",
  "The number of elements that equivariant_basis returns is the dimension of the space of vectors the whole group fixes. It adds over sums, is multiplied by k for k copies, grows by k when an integer k is added, does not depend on the order of the factors of a product, and distributes over sums in products and in the spaces of maps V1>>V2, in either argument. V1>>V2 has as many as V2.T>>V1.T, and, for an orthogonal group, as V2>>V1, and V as V.T. A larger group never has more, and there are never more than the size of the representation. For a product of representations of different groups the numbers multiply.",
  "all representation expressions of a group, all groups and pairs of nested groups, all products over several groups, all histories of calls",
  "tests count the elements for a few representations of a few groups; the rules relate the counts of infinitely many",
  [RP+":Rep.equivariant_basis", RP+":Rep.__rshift__", PS+":SumRep.equivariant_basis", PS+":SumRep.from_reps", PS+":mul_reps", PS+":DirectProduct.equivariant_basis"])

p("C133", "A smaller symmetry group never makes a network less expressive",
  "If one group contains another, then for all values of the parameters of an EMLP built for the larger group there are values of the parameters of the EMLP built from the same arguments for the smaller group with which the two return the same output for every input, and raise for the same inputs. A Linear layer for the group given by the generators of two groups together computes exactly the functions that the layers for both of the groups can compute. A Linear layer for the smaller group computes nothing that the layer for the larger group does not if and only if the two groups have the same number of elements in equivariant_basis of the space of maps and in that of the output representation.",
  "all pairs of nested groups (with the same flags), all arguments of EMLP, all parameters, all inputs, all histories of calls",
  "a test can compare two networks for given parameters; that parameters exist for every network is a statement about all of them",
  [NN+":EMLP", NN+":EMLPBlock", NN+":Linear", RP+":Rep.equivariant_projector", GR+":Group"])

p("C134", "Further hidden layers never make a network less expressive",
  "If every summand of the hidden representation has a gate (no scalars, and no representations of permutation groups), then for all values of the parameters of an EMLP with at least one hidden layer there are values of the parameters of every EMLP with more hidden layers, built from the same arguments, with which it returns the same output for every input. It holds for every activation function that is 1/2 at 0, as the sigmoid is, with the same parameters.",
  "all groups, all arguments of EMLP with one hidden representation, all numbers of layers from 1 on, all parameters, all inputs, all histories of calls",
  "a test can train one pair of networks; that suitable parameters exist for all parameters of the shallower network, and agree on all inputs, is a statement about infinitely many",
  [NN+":EMLP", NN+":EMLPBlock", NN+":Linear", NN+":BiLinear", NN+":GatedNonlinearity", RP+":bilinear_weights"])

p("C135", "Linear layers form an algebra: stacking, adding and splitting them gives Linear layers",
  "Whatever Linear(a,b) followed by Linear(b,c) computes, for any weights and biases, Linear(a,c) computes for some weight and bias. Sums and multiples of functions that a Linear layer computes are computed by it as well, and Linear(a,a) computes the identity. The functions that Linear(a+b,c) computes are exactly the sums of a function of Linear(a,c) of the first part of the input and a function of Linear(b,c) of the rest; those of Linear(c,a+b) are exactly the concatenations of a function of Linear(c,a) and one of Linear(c,b).",
  "all groups, all representations, all weights, biases and inputs, all histories of calls",
  "a test compares given weights; the claim is that weights exist for all functions of the other layers, and conversely",
  [NN+":Linear", RP+":Rep.equivariant_projector", RP+":Rep.__add__", PS+":SumRep"])

p("C136", "Linear layers before and after an EMLP can be absorbed into an EMLP",
  "Let two EMLPs be constructed for the same group, the same ch and num_layers and with the same random draws, but with other input and output representations. Whatever a Linear layer from the inputs of the second to the inputs of the first, the first network, and a Linear layer from the outputs of the first to the outputs of the second compute one after the other, for any parameters, the second network computes for some parameters. An EMLP without hidden layers computes exactly the functions that the Linear layer from its input to its output representation computes.",
  "all groups, all input, output and hidden representations, all numbers of layers, all parameters and inputs, all activation functions and histories of calls",
  "a test compares given parameters; the claim is that parameters exist for all functions of the wrapped network",
  [NN+":EMLP", NN+":Linear", NN+":EMLPBlock"])

p("C137", "Standardize with admissible statistics does not change what a network can learn",
  "Let the statistics respect the group: the shifts are fixed by it and each scale is nonzero and the same for all coordinates that the group mixes. Then Standardize(EMLP(...),stats) computes, over all values of the parameters, exactly the functions that the EMLP alone computes: for all parameters of the one there are parameters of the other with the same outputs on all inputs.",
  "all groups, all representations, all numbers of layers, all statistics that respect the group, all parameters and inputs, all activation functions and histories of calls",
  "a test compares given parameters; the claim is that parameters exist for all functions of the other model",
  [NN+":Standardize", NN+":EMLP", NN+":Linear"])

p("C138", "The projector averages over a finite group, and finds the nearest invariant vector for every group",
  "For a finite orthogonal group, rep.equivariant_projector() applied to v is the mean of rho(h)v over all elements h of the group, though it is computed from the generators only. Linear(repin,repout) with weight w and bias b computes the mean over the group of the plain layer with the same parameters, rho_out(h)(w rho_in(h)^-1 x + b). For every group, finite or not and orthogonal or not, equivariant_projector() applied to v is invariant and no invariant vector is nearer to v.",
  "all finite orthogonal groups (all groups for the last part), all expressions, all weights, biases, inputs and vectors, all histories of calls",
  "a test samples a few elements of a few groups; the claim sums over all elements of any group and compares with all invariant vectors",
  [RP+":Rep.equivariant_projector", RP+":Rep.equivariant_basis", NN+":Linear"])

p("C139", "For groups with a uniform distribution, projector and Linear layers are expectations over random group elements",
  "Let X be a uniformly distributed random element of an orthogonal group (Haar measure; for instance a rotation by a uniform angle). Then rep.equivariant_projector() applied to v is the expectation of rho(X)v, the number of columns of rep.equivariant_basis() is the expectation of the character of rep at X, and Linear(repin,repout) with weight w and bias b computes the expectation of rho_out(X)(w rho_in(X)^-1 x + b): the library's layers are the plain layers averaged over the whole group, though no element is ever sampled. Every closed group of orthogonal matrices has such an X, in particular SO(n), O(n) and the finite groups. For SO(2) there are as many independent equivariant linear maps from V**p to V**q as the middle binomial coefficient of p+q, and none if p+q is odd.",
  "all orthogonal groups with a uniform distribution, all expressions, all weights, biases, inputs and vectors, all histories of calls",
  "the expectation is an integral over an infinite group; a test can only sample it, with random error",
  [RP+":Rep.equivariant_projector", RP+":Rep.equivariant_basis", NN+":Linear"])

p("C140", "Averaged over the group, GroupAugmentation makes every network equivariant",
  "Let a network treat the rows of a batch separately, by any function, and let rep_in and rep_out be Scalar, V, its dual or user-defined (GroupAugmentation raises on the others, C39). In training, GroupAugmentation gives each row an output that depends on this row and on its own group element only. For a finite group, the mean of this output over the group is an equivariant function of the row. For an orthogonal group with uniformly distributed random elements and a continuous network, so is the expectation. If the group is orthogonal and the network is the plain layer x -> wx+b, this mean or expectation is the output of Linear(rep_in,rep_out) with the same weight and bias.",
  "all finite groups and all orthogonal groups with a uniform distribution, all networks that act on rows (continuous ones if the group is infinite), all batches, all draws of group elements, all weights and biases",
  "a test can only draw some elements for some networks; the mean over a few draws is not equivariant",
  [DS+":GroupAugmentation", NN+":Linear"])

with open(os.path.join(os.path.dirname(__file__), "..", "properties.jsonl"), "w") as f:
    for x in P: f.write(json.dumps(x, ensure_ascii=False)+"\n")
print(len(P), "properties")
