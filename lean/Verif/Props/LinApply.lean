import Verif.Lemmas.LinApply9
import Mathlib.Tactic.IntervalCases
import Mathlib.Algebra.Star.Rat
import Mathlib.NumberTheory.Zsqrtd.GaussianInt

/-!
# Lazy operators as matrices (C70, C71, C72)

`op@x` is `Op.dot`, `op.to_dense()` is `Op.toDense`, `op.T` is `Op.T`, `op.H` is `Op.H`, `op.invT()` is `Op.invT`.
`Op.WF` says that the parts of an expression fit together; that the constructors check it is `C70_constructors`.
-/
namespace Verif
open List DMat
variable {R : Type} [CommRing R] [StarRing R]

/-! ### C70 -/

/-- C70: `op@v` and `op@V` are the products of `op.to_dense()` with the vector and with the matrix, for every well-formed operator
expression, and `op.shape` is the shape of `op.to_dense()`. -/
theorem C70_dense_partial (M : Op R) (h : M.WF) : ∃ D, M.toDense = .ok D ∧ M.shape = (D.rows, D.cols) ∧
    (∀ v : List R, v.length = D.cols → M.dot ⟨[D.cols], v⟩ = .ok ⟨[D.rows], D.mulVec v⟩) ∧
    ∀ X : DMat R, X.rows = D.cols → M.dot X.toArr = .ok (D.mul X).toArr :=
  ⟨M.den, M.toDense_eq h, M.shape_eq h, fun v hv => (M.fwd_is h).dot_vec v hv, fun X hX => (M.fwd_is h).dot X hX⟩

/-- C70: the dense matrix is the one the expression denotes: Kronecker products and sums, block diagonals, stacked rows,
permutation matrices, sums, products, multiples, powers and transposes of the parts. -/
theorem C70_denotes_partial (M : Op R) (h : M.WF) : M.toDense = .ok M.den := M.toDense_eq h

/-- C70: an array whose shape does not match raises, for every operator whatsoever. -/
theorem C70_mismatch (M : Op R) (x : NdArr R) (h1 : x.shape ≠ [M.shape.2]) (h2 : ∀ k, x.shape ≠ [M.shape.2, k]) :
    ∃ e, M.dot x = .error e := by
  unfold Op.dot Act.dot
  split_ifs with h3 h4
  · unfold Act.matvec
    rw [if_pos ⟨h1, h2 1⟩]
    exact ⟨_, rfl⟩
  · unfold Act.matmat
    obtain ⟨s, d⟩ := x
    rw [if_neg (by simpa using h4)]
    have : s.headD 0 ≠ M.fwd.cols := by
      intro e
      match s, h4 with
      | [a, b], _ => exact h2 b (by simp only [headD_cons] at e; rw [e]; rfl)
    rw [if_pos this]
    exact ⟨_, rfl⟩
  · exact ⟨_, rfl⟩

/-- C70: what `A+B`, `A@B`, `c*A` and `A**p` return for operators is again well formed, and stands for the sum, product, multiple
and power; on operands whose shapes do not fit they raise. -/
theorem C70_constructors (A B : Op R) (hA : A.WF) (hB : B.WF) (ha : A.asArr = none) (hb : B.asArr = none) :
    (A.den.rows = B.den.rows ∧ A.den.cols = B.den.cols → ∃ M, Op.mkAdd A B = .ok M ∧ M.WF ∧ M.den = A.den.add B.den) ∧
    (¬(A.den.rows = B.den.rows ∧ A.den.cols = B.den.cols) → Op.mkAdd A B = .error .value) ∧
    (A.den.cols = B.den.rows → ∃ M, Op.mkMul A B = .ok M ∧ M.WF ∧ M.den = A.den.mul B.den) ∧
    (A.den.cols ≠ B.den.rows → Op.mkMul A B = .error .value) ∧
    (∀ c, ∃ M, Op.mkScale c A = .ok M ∧ M.WF ∧ M.den = DMat.smul c A.den) ∧
    (∀ p : ℕ, A.den.rows = A.den.cols → ∃ M, Op.mkPow A p = .ok M ∧ M.WF ∧ M.den = A.den.pow p) ∧
    (∀ p : ℤ, A.den.rows ≠ A.den.cols ∨ p < 0 → Op.mkPow A p = .error .value) := by
  refine ⟨fun h => ⟨.add A B, ?_, by rw [Op.WF]; exact ⟨hA, hB, h.1, h.2, ha, hb⟩, by rw [Op.den]⟩, fun h => ?_,
    fun h => ⟨.mul A B, ?_, by rw [Op.WF]; exact ⟨hA, hB, h, ha, hb⟩, by rw [Op.den]⟩, fun h => ?_,
    fun c => ⟨.smul c A, ?_, by rw [Op.WF]; exact ⟨hA, ha⟩, by rw [Op.den]⟩,
    fun p h => ⟨.pow A p, ?_, by rw [Op.WF]; exact ⟨hA, h, ha⟩, by rw [Op.den]⟩, fun p h => ?_⟩
  · rw [Op.mkAdd, ha, hb, Op.shape_eq hA, Op.shape_eq hB, h.1, h.2, if_neg (by simp), if_pos rfl]
  · rw [Op.mkAdd, ha, hb, Op.shape_eq hA, Op.shape_eq hB, if_neg (by simp), if_neg (by simpa using h)]
  · rw [Op.mkMul, ha, hb, Op.shape_eq hA, Op.shape_eq hB, if_neg (by simp), if_pos h]
  · rw [Op.mkMul, ha, hb, Op.shape_eq hA, Op.shape_eq hB, if_neg (by simp), if_neg h]
  · rw [Op.mkScale, ha]; rfl
  · rw [Op.mkPow, ha, Op.shape_eq hA, if_neg (by simp), if_neg (by simpa using h), if_neg (by omega)]; simp
  · rw [Op.mkPow, ha, Op.shape_eq hA, if_neg (by simp)]
    rcases h with h | h
    · rw [if_pos h]
    · split_ifs <;> rfl

/-- A matrix given by its rows, for examples. -/
def rowsMat {R : Type} [Zero R] (m n : ℕ) (l : List (List R)) : DMat R := DMat.of m n fun i j => (l.getD i []).getD j 0

/-- The hypotheses are met by an expression with a Kronecker product, a direct sum with multiplicities, a permutation and a
rectangular array. -/
def exOp : Op ℤ := .mul (.perm [2, 0, 1, 3, 5, 4]) (.add (.kron [.lazy (rowsMat 2 2 [[1, 2], [3, 4]]), .shift 3 1])
  (.dsum [(.arr (rowsMat 2 2 [[0, 1], [5, 1]]), 2), (.smul 3 (.eye 2), 1)]))

theorem exOp_wf : exOp.WF := by
  simp only [exOp, Op.WF, Op.WFL, Op.WFM, Op.den, Op.denL, Op.denM, Op.asArr]
  refine ⟨by decide +kernel, ⟨⟨⟨trivial, trivial, trivial⟩, by decide, ?_⟩, ⟨⟨trivial, ⟨trivial, trivial⟩, trivial⟩, by decide, ?_⟩, by decide +kernel,
    by decide +kernel, trivial, trivial⟩, by decide +kernel, trivial, trivial⟩
  · intro A hA
    simp only [mem_cons, not_mem_nil, or_false] at hA
    rcases hA with rfl | rfl <;> decide
  · intro M hM
    simp only [mem_cons, not_mem_nil, or_false] at hM
    rcases hM with rfl | rfl <;> simp only [Op.den] <;> rfl

example : exOp.dot ⟨[6], [1, 2, 3, 4, 5, 6]⟩ = .ok ⟨[6], [16, 17, 16, 52, 44, 34]⟩ := by decide +kernel

/-- C70 fails for direct sums of rectangular blocks: both sides of `shape` are computed from the numbers of rows, so the vector that
`to_dense()` accepts is refused. -/
theorem C70_counterexample_rectangular : ∃ (M : Op ℤ) (D : DMat ℤ), M.toDense = .ok D ∧ M.shape ≠ (D.rows, D.cols) ∧
    ∀ v, v.length = D.cols → M.dot ⟨[D.cols], v⟩ = .error .value := by
  refine ⟨.dsum [(.lazy (rowsMat 1 2 [[1, 2]]), 2)], DMat.bdiag (replicate 2 (rowsMat 1 2 [[1, 2]])), ?_, by decide +kernel, ?_⟩
  · rw [Op.toDense, Op.toDenseM_eq _ (by simp only [Op.WFM, Op.WF, and_self])]; rfl
  · intro v _; rfl

/-- A vector of the right length on which `_matvec` raises. -/
private theorem Act.dot_vec_error {a : Act R} {n : ℕ} {v : List R} {e : PyErr} (hn : n = a.cols) (h : a.mv ⟨[n], v⟩ = .error e) :
    a.dot ⟨[n], v⟩ = .error e := by
  subst hn
  have h1 : a.dot ⟨[a.cols], v⟩ = a.matvec ⟨[a.cols], v⟩ := if_pos (Or.inl rfl)
  have h2 : a.matvec ⟨[a.cols], v⟩ = (do (← a.mv ⟨[a.cols], v⟩).reshape? [a.rows]) := if_neg (fun h => h.1 rfl)
  rw [h1, h2, h]; rfl

/-- C70 fails for a Kronecker product of a single Kronecker product: the constructor returns an object which is its own operand, and
using it raises `RecursionError`. -/
theorem C70_counterexample_nested (A B : Op R) : ∃ M, Op.mkKron [.kron [A, B]] = .ok M ∧ M.toDense = .error .recursion ∧
    (∀ v, M.dot ⟨[M.shape.2], v⟩ = .error .recursion) ∧ ∀ X : DMat R, X.rows = M.shape.2 → M.dot X.toArr = .error .recursion := by
  refine ⟨_, rfl, by rw [Op.toDense], fun v => ?_, fun X hX => ?_⟩
  · exact Act.dot_vec_error rfl (by rw [Op.fwd])
  · have hX : X.rows = ((Op.selfRef (Act.kron (Op.fwdL [A, B])).rows (Act.kron (Op.fwdL [A, B])).cols : Op R).fwd).cols := hX
    unfold Op.dot Act.dot
    split_ifs with h1 h2
    · have h1 : X.cols = 1 := by exact (h1.resolve_left (by show ¬ 2 = 1; decide)).2
      unfold Act.matvec
      rw [if_neg (fun h => h.2 (by rw [toArr, h1, hX])), Op.fwd]; rfl
    · unfold Act.matmat
      rw [if_neg (by simp [toArr]), if_neg (by simp [toArr, hX]), Op.fwd]
    · exact absurd rfl h2

/-- C70 fails for Kronecker products with a factor without columns, which `DirectProduct.equivariant_basis` returns when a factor has no
invariants: they can only be applied to vectors of length 0, and applying them raises. -/
theorem C70_counterexample_empty (m n : ℕ) : ∃ D, (Op.kron [.lazy (DMat.zero m 0), .lazy (DMat.zero n 0)] : Op R).toDense = .ok D ∧ D.cols = 0 ∧
    ∃ e, (Op.kron [.lazy (DMat.zero m 0), .lazy (DMat.zero n 0)] : Op R).dot ⟨[0], []⟩ = .error e := by
  refine ⟨DMat.kron (DMat.zero m 0) (DMat.zero n 0), ?_, rfl, .type, ?_⟩
  · rw [Op.toDense, Op.toDenseL_eq _ (by simp only [Op.WFL, Op.WF, and_self])]; rfl
  · rfl

/-! ### C71 -/

/-- C71 for operators whose class defines the adjoint and whose arrays are real (`Op.Rev`; the vectors may be complex): `op.T` and `op.H`
are well-formed operators for the transpose and the conjugate transpose.  Missing: the classes without adjoint and complex arrays,
for which the counterexamples below show that the property fails. -/
theorem C71_partial (M : Op R) (h : M.WF) (h' : M.Rev) (ha : M.asArr = none) {D : DMat R} (hD : M.toDense = .ok D) :
    M.T.WF ∧ M.T.toDense = .ok D.transpose ∧ ∃ N, M.H = .ok N ∧ N.WF ∧ N.toDense = .ok D.conjTranspose := by
  rw [M.toDense_eq h] at hD
  obtain rfl := Except.ok.inj hD
  obtain ⟨t1, t2⟩ := Op.T_ok h h'
  obtain ⟨N, e, w, _, d⟩ := M.H_ok h h' ha
  exact ⟨t1, by rw [M.T.toDense_eq t1, t2], N, e, w, by rw [N.toDense_eq w, d]⟩

/-- C71, in terms of products: `op.T@v`, `op.T@V`, `op.H@v`, `op.H@V`. -/
theorem C71_apply_partial (M : Op R) (h : M.WF) (h' : M.Rev) (ha : M.asArr = none) {D : DMat R} (hD : M.toDense = .ok D) :
    (∀ v : List R, v.length = D.rows → M.T.dot ⟨[D.rows], v⟩ = .ok ⟨[D.cols], D.transpose.mulVec v⟩) ∧
    (∀ X : DMat R, X.rows = D.rows → M.T.dot X.toArr = .ok (D.transpose.mul X).toArr) ∧
    ∃ N, M.H = .ok N ∧ (∀ v : List R, v.length = D.rows → N.dot ⟨[D.rows], v⟩ = .ok ⟨[D.cols], D.conjTranspose.mulVec v⟩) ∧
      ∀ X : DMat R, X.rows = D.rows → N.dot X.toArr = .ok (D.conjTranspose.mul X).toArr := by
  rw [M.toDense_eq h] at hD
  obtain rfl := Except.ok.inj hD
  obtain ⟨t1, t2⟩ := Op.T_ok h h'
  obtain ⟨N, e, w, _, d⟩ := M.H_ok h h' ha
  have f1 := Op.fwd_is _ t1
  have f2 := Op.fwd_is _ w
  rw [t2] at f1
  rw [d] at f2
  exact ⟨fun v hv => f1.dot_vec v hv, fun X hX => f1.dot X hX, N, e, fun v hv => f2.dot_vec v hv, fun X hX => f2.dot X hX⟩

/-- C71 for concatenations of real operators: `ConcatLazy(Ms).T@V` is right for matrices `V` (with other than one column), and on
vectors it raises `NotImplementedError`. -/
theorem C71_concat_partial (Ms : List (Op R)) (h : (Op.concat Ms).WF) (h' : Op.RevL Ms) (hreal : ∀ A ∈ Op.denL Ms, A.conjTranspose = A.transpose)
    {D : DMat R} (hD : (Op.concat Ms).toDense = .ok D) :
    (∀ X : DMat R, X.rows = D.rows → X.cols ≠ 1 → (Op.concat Ms).T.dot X.toArr = .ok (D.transpose.mul X).toArr) ∧
    ∀ v : List R, v.length = D.rows → (Op.concat Ms).T.dot ⟨[D.rows], v⟩ = .error .notImplemented := by
  rw [Op.toDense_eq _ h] at hD
  obtain rfl := Except.ok.inj hD
  rw [Op.WF] at h
  obtain ⟨A, L, hL⟩ : ∃ A L, Op.denL Ms = A :: L := by
    cases Ms with
    | nil => exact absurd rfl h.2.1
    | cons M Ms => exact ⟨_, _, by rw [Op.denL]⟩
  have hs : ∀ B ∈ Op.denL Ms, B.rows = A.rows ∧ B.cols = A.cols := fun B hB => h.2.2 B hB A (by rw [hL]; simp)
  have ht := Op.tL_is Ms h.1 h'
  have hrows : (vstack (Op.denL Ms)).rows = A.rows * (Op.denL Ms).length := Act.vstack_sub_rows _ fun B hB => (hs B hB).1
  have hcols : ((Op.tL Ms).map Act.cols).sum = (vstack (Op.denL Ms)).rows := by
    rw [ht.cols, Act.vstack_rows, map_map]; rfl
  have hconj : ∀ B ∈ Op.denL Ms, Act.conjMat B = B := fun B hB => by
    rw [Op.conjMat_eq, ← hreal B hB, conjTranspose_conjTranspose]
  have hv : Act.conjMat (vstack (Op.denL Ms)) = vstack (Op.denL Ms) := by
    generalize Op.denL Ms = L at hconj
    induction L with
    | nil => exact DMat.ext rfl rfl fun i j hi _ => absurd hi (Nat.not_lt_zero i)
    | cons A L ih =>
      cases L with
      | nil => exact hconj A (by simp)
      | cons B L =>
        have ih := ih fun C hC => hconj C (mem_cons_of_mem _ hC)
        have hA := hconj A (by simp)
        show Act.conjMat (vstack2 A (vstack (B :: L))) = vstack2 A (vstack (B :: L))
        refine DMat.ext rfl rfl fun i j hi hj => ?_
        have hi : i < A.rows + (vstack (B :: L)).rows := hi
        have hj : j < A.cols := hj
        rw [Act.conjMat_e, show (vstack2 A (vstack (B :: L))).e i j = _ from of_e hi hj]
        split_ifs
        · rw [← Act.conjMat_e, hA]
        · rw [← Act.conjMat_e, ih]
  have hfwd : (Op.concat Ms).T.fwd = (Act.concatR (Op.tL Ms)).conj := by
    show (Op.tr (Op.concat Ms)).fwd = _
    rw [Op.fwd, Op.bwd]
  constructor
  · intro X hX hc
    rw [Op.den] at hX ⊢
    rw [Op.dot, hfwd]
    unfold Act.dot Act.matmat
    rw [if_neg (by simp [toArr, hc]), if_pos (show X.toArr.shape.length = 2 from rfl), if_neg (by simp [toArr]),
      if_neg (by show ¬ X.rows ≠ ((Op.tL Ms).map Act.cols).sum; rw [hcols, hX]; simp)]
    show (do Except.ok (← Act.concatRMM (Op.tL Ms) X.toArr.conj).conj) = _
    rw [Act.conj_toArr, Act.concatRMM_eq ht (by rw [hL]; simp) hs (Act.conjMat X) (by rw [← hrows, ← hX]; rfl)]
    show Except.ok (NdArr.conj _) = _
    rw [Act.conj_toArr, Act.conjMat_mul, Act.conjMat_conjMat]
    congr 3
    refine DMat.ext rfl rfl fun i j _ _ => ?_
    rw [Act.conjMat_e, transpose_e, ← Act.conjMat_e, hv]
  · intro v _
    rw [Op.den]
    rw [Op.dot, hfwd]
    exact Act.dot_vec_error (by show _ = ((Op.tL Ms).map Act.cols).sum; rw [hcols]) rfl

/-- Non-vacuity: a real expression over complex scalars with all constructors that have an adjoint. -/
def exRev : Op GaussianInt := .smul ⟨0, 1⟩ (.mul (.pow (.shift 4 1) 3) (.kron [.lazy (rowsMat 2 2 [[1, 2], [3, 4]]), .perm [1, 0]]))

example : exRev.WF ∧ exRev.Rev ∧ exRev.asArr = none := by
  have h1 : (rowsMat 2 2 [[1, 2], [3, 4]] : DMat GaussianInt).conjTranspose = (rowsMat 2 2 [[1, 2], [3, 4]]).transpose := by
    refine DMat.ext rfl rfl fun i j hi hj => ?_
    have hi : i < 2 := hi
    have hj : j < 2 := hj
    interval_cases i <;> interval_cases j <;> decide +kernel
  have h2 : (permMat [1, 0] : DMat GaussianInt).conjTranspose = (permMat [1, 0]).transpose := by
    refine DMat.ext rfl rfl fun i j hi hj => ?_
    have hi : i < 2 := hi
    have hj : j < 2 := hj
    interval_cases i <;> interval_cases j <;> decide +kernel
  refine ⟨?_, ?_, rfl⟩
  · simp only [exRev, Op.WF, Op.WFL, Op.den, Op.denL, Op.asArr]
    refine ⟨⟨⟨trivial, rfl, trivial⟩, ⟨⟨trivial, by decide +kernel, trivial⟩, by decide, ?_⟩, by decide +kernel, trivial, trivial⟩, trivial⟩
    intro A hA
    simp only [mem_cons, not_mem_nil, or_false] at hA
    rcases hA with rfl | rfl <;> decide
  · simp only [exRev, Op.Rev, Op.RevL, Op.den, Op.denL]
    refine ⟨trivial, ⟨h1, trivial, trivial⟩, ?_⟩
    intro A hA
    simp only [mem_cons, not_mem_nil, or_false] at hA
    rcases hA with rfl | rfl
    · exact ⟨by decide, h1⟩
    · exact ⟨by decide, h2⟩

/-- C71 fails for complex arrays: `Lazy(A).T` multiplies by the conjugate transpose, and `Lazy(A).H` by the transpose. -/
theorem C71_counterexample_complex : ∃ A : DMat GaussianInt, ∃ N, (Op.lazy A).H = .ok N ∧
    (Op.lazy A).T.dot ⟨[1], [1]⟩ ≠ .ok ⟨[1], A.transpose.mulVec [1]⟩ ∧ N.dot ⟨[1], [1]⟩ ≠ .ok ⟨[1], A.conjTranspose.mulVec [1]⟩ :=
  ⟨rowsMat 1 1 [[⟨0, 1⟩]], _, rfl, by decide +kernel, by decide +kernel⟩

/-- The same for a Kronecker product of complex operators. -/
theorem C71_counterexample_kron : ∃ A : DMat GaussianInt, ∃ N, (Op.kron [.arr A, .eye 1]).H = .ok N ∧
    (Op.kron [.arr A, .eye 1]).T.dot ⟨[1], [1]⟩ ≠ .ok ⟨[1], A.transpose.mulVec [1]⟩ ∧ N.dot ⟨[1], [1]⟩ ≠ .ok ⟨[1], A.conjTranspose.mulVec [1]⟩ :=
  ⟨rowsMat 1 1 [[⟨0, 1⟩]], _, rfl, by decide +kernel, by decide +kernel⟩

/-- C71 fails for direct sums, quarter turns and the operators that `SumRep` returns for bases and projectors: `.T@v` raises, and so
does `.H` or `.H@v`. -/
theorem C71_counterexample_raises (Ms : List (Op R × ℕ)) (n : ℕ) (k : ℤ) (pre : Option (List ℕ)) (post : List ℕ) (r c : ℕ) (v : List R) :
    (Op.dsum Ms).H = .error .type ∧ (∃ e, (Op.dsum Ms).T.dot ⟨[(Op.dsum Ms).T.shape.2], v⟩ = .error e) ∧
    (∃ e, (Op.rot90 n k : Op R).T.dot ⟨[n * n], v⟩ = .error e) ∧ (∃ N, (Op.rot90 n k : Op R).H = .ok N ∧ ∃ e, N.dot ⟨[n * n], v⟩ = .error e) ∧
    (∃ e, (Op.closure Ms pre post r c).T.dot ⟨[r], v⟩ = .error e) ∧
    ∃ N, (Op.closure Ms pre post r c).H = .ok N ∧ ∃ e, N.dot ⟨[r], v⟩ = .error e := by
  refine ⟨rfl, ⟨.type, ?_⟩, ⟨.notImplemented, ?_⟩, ⟨_, rfl, .notImplemented, ?_⟩, ⟨.notImplemented, ?_⟩, ⟨_, rfl, .type, ?_⟩⟩
  · show (Op.tr (.dsum Ms)).fwd.dot ⟨[(Op.tr (.dsum Ms)).fwd.cols], v⟩ = _
    exact Act.dot_vec_error rfl (by rw [Op.fwd, Op.bwd]; rfl)
  · show (Op.tr (.rot90 n k)).fwd.dot _ = _
    exact Act.dot_vec_error (by rw [Op.fwd, Op.bwd]; rfl) (by rw [Op.fwd, Op.bwd]; rfl)
  · show (Op.adj (.rot90 n k)).fwd.dot _ = _
    exact Act.dot_vec_error (by rw [Op.fwd, Op.bwd]; rfl) (by rw [Op.fwd, Op.bwd]; rfl)
  · show (Op.tr (.closure Ms pre post r c)).fwd.dot _ = _
    exact Act.dot_vec_error (by rw [Op.fwd, Op.bwd]; rfl) (by rw [Op.fwd, Op.bwd]; rfl)
  · show (Op.noMatvec c r).fwd.dot _ = _
    exact Act.dot_vec_error (by rw [Op.fwd]; rfl) (by rw [Op.fwd]; rfl)

/-! ### C72 -/

section invT
variable {F : Type} [Field F] [StarRing F] [DecidableEq F] {inv : DMat F → Py (DMat F)}

/-- C72 for expressions built from invertible `Lazy` arrays, identities, permutations, shifts and quarter turns by Kronecker products,
products and powers: `op.invT()` is an operator for the inverse of the transpose.  `np.linalg.inv` is assumed to invert every
invertible array.  Missing: sums, multiples, direct sums and plain arrays in Kronecker products, for which the counterexamples below
show that the property fails. -/
theorem C72_partial (hinv : Op.InvSpec inv) (M : Op F) (h : M.WF) (h' : M.Inv) {D : DMat F} (hD : M.toDense = .ok D) :
    ∃ N E, M.invT inv = .ok N ∧ N.WF ∧ N.toDense = .ok E ∧ ∃ n, E.IsSq n ∧ D.IsSq n ∧ E.mul D.transpose = one n ∧ D.transpose.mul E = one n := by
  rw [M.toDense_eq h] at hD
  obtain rfl := Except.ok.inj hD
  obtain ⟨N, e, w, _, n, h1, h2, h3⟩ := Op.invT_ok hinv M h h'
  have h3' : M.den.transpose.mul N.den = one n := by
    have := congrArg DMat.transpose h3
    rwa [DMat.transpose_mul _ _ (by rw [transpose_cols, h1.1, h2.1]), transpose_transpose, transpose_one] at this
  exact ⟨N, N.den, e, w, N.toDense_eq w, n, h1, h2, mul_eq_one_comm ⟨h2.2, h2.1⟩ h1 h3', h3'⟩

end invT

/-- An expression meeting the hypotheses. -/
def exInv : Op ℚ := .mul (.rot90 2 1) (.kron [.lazy (rowsMat 2 2 [[1, 1], [0, 2]]), .perm [1, 0]])

example : exInv.WF ∧ exInv.Inv := by
  constructor
  · simp only [exInv, Op.WF, Op.WFL, Op.den, Op.denL, Op.asArr]
    refine ⟨by decide, ⟨⟨trivial, by decide +kernel, trivial⟩, by decide, ?_⟩, by decide +kernel, trivial, trivial⟩
    intro A hA
    simp only [mem_cons, not_mem_nil, or_false] at hA
    rcases hA with rfl | rfl <;> decide
  · simp only [exInv, Op.Inv, Op.InvL]
    refine ⟨trivial, ⟨2, rowsMat 2 2 [[1, -1/2], [0, 1/2]], ⟨rfl, rfl⟩, ⟨rfl, rfl⟩, ?_⟩, trivial, trivial⟩
    refine DMat.ext rfl rfl fun i j hi hj => ?_
    have hi : i < 2 := hi
    have hj : j < 2 := hj
    interval_cases i <;> interval_cases j <;> decide +kernel

/-- C72 fails for multiples: `(2*LazyShift(3)).invT()` is half the transpose, not half the shift. -/
theorem C72_counterexample_scaled (inv : DMat ℚ → Py (DMat ℚ)) : ∃ M N : Op ℚ, M.WF ∧ M.invT inv = .ok N ∧ ∃ D E, M.toDense = .ok D ∧
    N.toDense = .ok E ∧ D.rows = 3 ∧ E.mul D.transpose ≠ one 3 ∧ ∃ B : DMat ℚ, B.mul D.transpose = one 3 := by
  have hw : (Op.smul (2 : ℚ) (.shift 3 1)).WF := by simp only [Op.WF, Op.asArr, and_self]
  have hr : (Op.shift 3 1 : Op ℚ).Rev := by rw [Op.Rev]; trivial
  have hn : (Op.smul (1 / 2 : ℚ) (.tr (.shift 3 1))).WF := by simp only [Op.WF, Op.asArr, and_self]; exact ⟨⟨trivial, hr, trivial⟩, trivial⟩
  refine ⟨.smul 2 (.shift 3 1), .smul (1 / 2) (.tr (.shift 3 1)), hw, by rw [Op.invT]; rfl, _, _, Op.toDense_eq _ hw, Op.toDense_eq _ hn, ?_, ?_,
    DMat.smul (1 / 2) (shiftMat 3 1), ?_⟩
  · simp only [Op.den]; rfl
  · intro e
    have := congrArg (fun A => DMat.e A 0 0) e
    simp only [Op.den] at this
    exact absurd this (by decide +kernel)
  · simp only [Op.den]
    refine DMat.ext rfl rfl fun i j hi hj => ?_
    have hi : i < 3 := hi
    have hj : j < 3 := hj
    interval_cases i <;> interval_cases j <;> decide +kernel

/-- C72 fails for sums: `(I(1)+I(1)).invT()` is `2`, not `1/2`. -/
theorem C72_counterexample_sum (inv : DMat ℚ → Py (DMat ℚ)) : ∃ M N : Op ℚ, M.WF ∧ M.invT inv = .ok N ∧ ∃ D E, M.toDense = .ok D ∧
    N.toDense = .ok E ∧ D.rows = 1 ∧ E.mul D.transpose ≠ one 1 ∧ ∃ B : DMat ℚ, B.mul D.transpose = one 1 := by
  have hw : (Op.add (.eye 1) (.eye 1) : Op ℚ).WF := by simp only [Op.WF, Op.asArr, and_self]
  refine ⟨.add (.eye 1) (.eye 1), .add (.eye 1) (.eye 1), hw, by rw [Op.invT, Op.invT]; rfl, _, _, Op.toDense_eq _ hw, Op.toDense_eq _ hw, ?_, ?_,
    DMat.smul (1 / 2) (one 1), ?_⟩
  · simp only [Op.den]; rfl
  · intro e
    have := congrArg (fun A => DMat.e A 0 0) e
    simp only [Op.den] at this
    exact absurd this (by decide +kernel)
  · simp only [Op.den]
    refine DMat.ext rfl rfl fun i j hi hj => ?_
    have hi : i < 1 := hi
    have hj : j < 1 := hj
    interval_cases i <;> interval_cases j <;> decide +kernel

/-- C72 fails for direct sums and for Kronecker products with plain arrays, such as the discrete generators of a product of groups:
`invT` raises. -/
theorem C72_counterexample_raises {F : Type} [Field F] [StarRing F] [DecidableEq F] (inv : DMat F → Py (DMat F)) (Ms : List (Op F × ℕ)) (A : DMat F) (n : ℕ) :
    (∃ e, (Op.dsum Ms).invT inv = .error e) ∧ (Op.kron [.arr A, .eye n]).invT inv = .error .attribute := by
  constructor
  · rw [Op.invT]
    cases Op.invTM inv Ms with
    | error e => exact ⟨e, rfl⟩
    | ok _ => exact ⟨_, rfl⟩
  · rw [Op.invT, Op.invTL, Op.invT]
    · rfl
    all_goals simp

end Verif
