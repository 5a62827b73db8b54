import Verif.Lemmas.CustomOp
import Mathlib.Algebra.Star.Rat
import Mathlib.NumberTheory.Zsqrtd.GaussianInt
import Mathlib.Tactic.IntervalCases
import Verif.Props.LinApply

/-!
# Operators made from functions (C120)

`op@x` is `Act.dot` of `CustomOp.act`, `op.to_dense()` is `CustomOp.toDense`, `op.H` is `CustomOp.H`, `op.T` is `CustomOp.T`,
`op.rmatvec` and `op.rmatmat` are `matvec` and `matmat` of `CustomOp.ract`.
-/
namespace Verif
open List DMat
variable {R : Type} [CommRing R]

/-- C120: if `matvec` multiplies vectors by `A`, the operator does so with vectors and matrices, column by column unless a `matmat`
is given, and `to_dense()` is `A`.  Partial: matrices without columns need a `matmat` (`C120_counterexample_empty`). -/
theorem C120_apply_partial {c : CustomOp R} {A : DMat R} (h : c.For A) :
    (∀ v : List R, v.length = A.cols → c.act.dot ⟨[A.cols], v⟩ = .ok ⟨[A.rows], A.mulVec v⟩) ∧
    (∀ X : DMat R, X.rows = A.cols → X.cols ≠ 0 ∨ c.mm ≠ none → c.act.dot X.toArr = .ok (A.mul X).toArr) ∧
    (A.cols ≠ 0 ∨ c.mm ≠ none → c.toDense = .ok A) := by
  have h2 : ∀ X : DMat R, X.rows = A.cols → X.cols ≠ 0 ∨ c.mm ≠ none → c.act.dot X.toArr = .ok (A.mul X).toArr :=
    fun X hX h0 => Act.dot_of h.rows h.cols h.vec X hX (h.mat X hX h0)
  refine ⟨fun v hv => Act.dot_vec_of h.rows h.cols h.vec v hv, h2, fun h0 => ?_⟩
  unfold CustomOp.toDense Op.defaultDense
  have e : c.act.cols = A.cols := h.cols
  rw [e, h2 (one A.cols) rfl h0]
  show DMat.ofArr (A.mul (one A.cols)).toArr = _
  rw [mul_one' A rfl, Op.ofArr_toArr]

/-- An operator that doubles the first entry and adds it to the second, as a function on arrays of any shape. -/
def exCustom : CustomOp ℤ where
  rows := 2
  cols := 2
  mv := some fun x => .ok ⟨x.shape, [2 * x.data.getD 0 0, x.data.getD 0 0 + x.data.getD 1 0]⟩
  rmv := some fun x => .ok ⟨x.shape, [2 * x.data.getD 0 0 + x.data.getD 1 0, x.data.getD 1 0]⟩

theorem exCustom_for : exCustom.For (rowsMat 2 2 [[2, 0], [1, 1]]) := by
  refine ⟨rfl, rfl, ⟨_, rfl, fun v hv s _ => ⟨s, ?_⟩⟩, fun g hg => by cases hg⟩
  match v, hv with
  | [x, y], _ => simp [mulVec, rowsMat, DMat.of, Finset.sum_range_succ, range_succ]

theorem exCustom_forAdj : exCustom.ForAdj (rowsMat 2 2 [[2, 0], [1, 1]]) := by
  refine ⟨⟨_, rfl, fun v hv s _ => ⟨s, ?_⟩⟩, fun g hg => by cases hg⟩
  match v, hv with
  | [x, y], _ => simp [mulVec, rowsMat, DMat.of, conjTranspose, Finset.sum_range_succ, range_succ]

example : exCustom.toDense = .ok (rowsMat 2 2 [[2, 0], [1, 1]]) := (C120_apply_partial exCustom_for).2.2 (Or.inl (by decide))
example : exCustom.act.dot ⟨[2, 2], [1, 2, 3, 4]⟩ = .ok ⟨[2, 2], [2, 4, 4, 6]⟩ := by decide +kernel

/-- C120: arrays that do not fit raise, whatever the functions are. -/
theorem C120_mismatch (c : CustomOp R) (x : NdArr R) (h1 : x.shape ≠ [c.cols]) (h2 : ∀ k, x.shape ≠ [c.cols, k]) :
    c.act.dot x = .error .value := by
  unfold Act.dot
  split_ifs with h3 h4
  · unfold Act.matvec
    rw [if_pos ⟨h1, h2 1⟩]
  · unfold Act.matmat
    obtain ⟨s, d⟩ := x
    rw [if_neg (by simpa using h4)]
    split_ifs with h5
    · rfl
    · match s, h4 with
      | [a, b], _ =>
        have : a = c.cols := not_not.1 h5
        exact absurd (by rw [this]) (h2 b)
  · rfl

/-- C120: if `rmatvec` multiplies by the conjugate transpose, `op.H` is an operator of the same kind for it, `rmatvec` and `rmatmat`
multiply by it, and `op.T` multiplies by the transpose.  Partial: matrices without columns need an `rmatmat`. -/
theorem C120_adjoint_partial [StarRing R] {c : CustomOp R} {A : DMat R} (h : c.For A) (h' : c.ForAdj A) :
    (c.H.For A.conjTranspose ∧ c.H.ForAdj A.conjTranspose) ∧
    (∀ v : List R, v.length = A.rows → c.ract.matvec ⟨[A.rows], v⟩ = .ok ⟨[A.cols], A.conjTranspose.mulVec v⟩ ∧
      c.T.dot ⟨[A.rows], v⟩ = .ok ⟨[A.cols], A.transpose.mulVec v⟩) ∧
    ∀ X : DMat R, X.rows = A.rows → X.cols ≠ 0 ∨ c.rmm ≠ none →
      c.ract.matmat X.toArr = .ok (A.conjTranspose.mul X).toArr ∧ c.T.dot X.toArr = .ok (A.transpose.mul X).toArr := by
  refine ⟨h.H h', fun v hv => ⟨?_, ?_⟩, fun X hX h0 => ⟨?_, ?_⟩⟩
  · have := Act.dot_vec_of (a := c.ract) (A := A.conjTranspose) h.cols h.rows (CustomOp.For.rvec h') v hv
    unfold Act.dot at this
    rwa [if_pos (by simp)] at this
  · exact Act.dot_vec_of (a := c.T) (A := A.transpose) h.cols h.rows (CustomOp.For.tvec h') v hv
  · unfold Act.matmat
    have : X.rows = c.ract.cols := by rw [hX]; exact h.rows.symm
    rw [if_neg (by simp [toArr]), if_neg (by simp [toArr, this])]
    exact h.rmat h' X hX h0
  · exact Act.dot_of (a := c.T) (A := A.transpose) h.cols h.rows (CustomOp.For.tvec h') X hX (h.tmat h' X hX h0)

example : exCustom.H.toDense = .ok (rowsMat 2 2 [[2, 1], [0, 1]]) := by
  rw [(C120_apply_partial (C120_adjoint_partial exCustom_for exCustom_forAdj).1.1).2.2 (Or.inl (by decide))]
  congr 1
  refine DMat.ext rfl rfl fun i j hi hj => ?_
  have hi : i < 2 := hi
  have hj : j < 2 := hj
  interval_cases i <;> interval_cases j <;> decide

/-- C120: `op.H.H` is `op`. -/
theorem C120_double (c : CustomOp R) : c.H.H = c := rfl

/-- C120: without `rmatvec` and `rmatmat` the adjoint exists as an object but every product with it raises, and so do `rmatvec`,
`rmatmat` and `op.T@v`. -/
theorem C120_no_adjoint [StarRing R] (c : CustomOp R) (h : c.rmv = none) (h' : c.rmm = none) (x : NdArr R) :
    (∃ e, c.H.act.dot x = .error e) ∧ (∃ e, c.ract.matvec x = .error e) ∧ (∃ e, c.ract.matmat x = .error e) ∧ ∃ e, c.T.dot x = .error e := by
  have mv1 : ∀ y, c.H.act.mv y = .error .type := fun y => by show CustomOp.call c.rmv _ _ = _; rw [h]; rfl
  have mv2 : ∀ y, c.ract.mv y = .error .notImplemented := fun y => by show CustomOp.call c.rmv _ _ = _; rw [h]; rfl
  have vec : ∀ (a : Act R) (e : PyErr), (∀ y, a.mv y = .error e) → ∀ y, ∃ e, a.matvec y = .error e := by
    intro a e he y
    unfold Act.matvec
    split_ifs
    · exact ⟨_, rfl⟩
    all_goals exact ⟨_, by rw [he]; rfl⟩
  have mat : ∀ (a : Act R), (∀ y, ∃ e, a.mm y = .error e) → ∀ y, ∃ e, a.matmat y = .error e := by
    intro a he y
    unfold Act.matmat
    split_ifs
    · exact ⟨_, rfl⟩
    · exact ⟨_, rfl⟩
    · exact he y
  have dot : ∀ (a : Act R), (∀ y, ∃ e, a.matvec y = .error e) → (∀ y, ∃ e, a.matmat y = .error e) → ∀ y, ∃ e, a.dot y = .error e := by
    intro a h1 h2 y
    unfold Act.dot
    split_ifs
    · exact h1 y
    · exact h2 y
    · exact ⟨_, rfl⟩
  have mm1 : ∀ y, ∃ e, c.H.act.mm y = .error e := by
    intro y
    have : c.H.act.mm y = Act.byColumns ⟨c.cols, c.rows, CustomOp.call c.rmv .type, .ok⟩ y := by
      show (match c.rmm with | some g => g y | none => _) = _
      rw [h']; rfl
    rw [this]
    unfold Act.byColumns
    have hv := vec ⟨c.cols, c.rows, CustomOp.call c.rmv .type, .ok⟩ .type fun z => by show CustomOp.call c.rmv _ _ = _; rw [h]; rfl
    cases y.columns with
    | nil => exact ⟨_, rfl⟩
    | cons z zs =>
      obtain ⟨e, he⟩ := hv z
      refine ⟨e, ?_⟩
      rw [List.mapM_cons, he]; rfl
  have mm2 : ∀ y, ∃ e, c.ract.mm y = .error e := by
    intro y
    have : c.ract.mm y = c.H.act.matmat y := by
      show (match c.rmm with | some g => g y | none => _) = _
      rw [h']
    rw [this]
    exact mat _ mm1 y
  refine ⟨dot _ (vec _ _ mv1) (mat _ mm1) x, vec _ _ mv2 x, mat _ mm2 x, dot _ ?_ ?_ x⟩
  · refine vec _ .notImplemented fun y => ?_
    show (do Except.ok (← c.ract.mv y.conj).conj) = _
    rw [mv2]; rfl
  · refine mat _ fun y => ?_
    obtain ⟨e, he⟩ := mm2 y.conj
    refine ⟨e, ?_⟩
    show (do Except.ok (← c.ract.mm y.conj).conj) = _
    rw [he]; rfl

/-- C120 fails for matrices without columns when there is no `matmat`: `np.hstack` has nothing to stack.  In particular the dense
form of an operator on the zero-dimensional space raises. -/
theorem C120_counterexample_empty (c : CustomOp R) (hm : c.mm = none) :
    (∀ X : DMat R, X.rows = c.cols → X.cols = 0 → c.act.dot X.toArr = .error .value) ∧ (c.cols = 0 → c.toDense = .error .value) := by
  have h : ∀ X : DMat R, X.rows = c.cols → X.cols = 0 → c.act.dot X.toArr = .error .value := by
    intro X hX h0
    unfold Act.dot
    rw [if_neg (by simp [toArr, h0]), if_pos (by simp [toArr])]
    unfold Act.matmat
    have e : c.act.cols = c.cols := rfl
    rw [if_neg (by simp [toArr]), if_neg (by simp [toArr, e, hX])]
    show (match c.mm with | some g => g _ | none => _) = _
    rw [hm]
    exact Act.byColumns_empty _ X h0
  refine ⟨h, fun h0 => ?_⟩
  unfold CustomOp.toDense Op.defaultDense
  have e : c.act.cols = c.cols := rfl
  rw [e, h (one c.cols) rfl h0]; rfl

example : ∃ c : CustomOp ℤ, c.mm = none ∧ c.For (rowsMat 2 0 []) ∧ c.toDense = .error .value := by
  refine ⟨⟨2, 0, some fun _ => .ok ⟨[2], [0, 0]⟩, none, none, none⟩, rfl, ⟨rfl, rfl, ⟨_, rfl, ?_⟩, fun g hg => by cases hg⟩,
    (C120_counterexample_empty _ rfl).2 rfl⟩
  intro v _ s _
  exact ⟨[2], by simp [mulVec, rowsMat, DMat.of, range_succ]⟩

/-- C120: operators made from functions (with a `matmat`) combine like matrices: sums, products, multiples and powers. -/
theorem C120_combine {c d : CustomOp R} {A B : DMat R} (hc : c.For A) (hd : d.For B) (h1 : c.mm ≠ none) (h2 : d.mm ≠ none) :
    (∀ X : DMat R, A.rows = B.rows → A.cols = B.cols → X.rows = A.cols → (c.act.add d.act).dot X.toArr = .ok ((A.add B).mul X).toArr) ∧
    (∀ X : DMat R, A.cols = B.rows → X.rows = B.cols → (c.act.mul d.act).dot X.toArr = .ok ((A.mul B).mul X).toArr) ∧
    (∀ (s : R) (X : DMat R), X.rows = A.cols → (c.act.smul s).dot X.toArr = .ok ((DMat.smul s A).mul X).toArr) ∧
    ∀ (n : ℕ) (X : DMat R), A.rows = A.cols → X.rows = A.cols → (c.act.pow n).dot X.toArr = .ok ((A.pow n).mul X).toArr := by
  refine ⟨fun X e1 e2 hX => ?_, fun X e hX => ?_, fun s X hX => ?_, fun n X e hX => ?_⟩
  · exact (Act.add_is (hc.is h1) (hd.is h2) e1 e2).dot X hX
  · exact (Act.mul_is (hc.is h1) (hd.is h2) e).dot X hX
  · exact (Act.smul_is s (hc.is h1)).dot X hX
  · have hp := Act.pow_is (hc.is h1) e n
    exact hp.dot X (by rw [hX, ← hp.cols]; exact hc.cols.symm)

/-- An operator with all four functions. -/
def exCustomFull [StarRing R] (A : DMat R) : CustomOp R :=
  ⟨A.rows, A.cols, some (NdArr.matmul A), some (NdArr.matmul A.conjTranspose), some (NdArr.matmul A), some (NdArr.matmul A.conjTranspose)⟩

theorem exCustomFull_for [StarRing R] (A : DMat R) : (exCustomFull A).For A ∧ (exCustomFull A).ForAdj A :=
  ⟨⟨rfl, rfl, ⟨_, rfl, (Act.ofMat_is A).mv⟩, fun g hg => by cases hg; exact (Act.ofMat_is A).mm⟩,
    ⟨⟨_, rfl, (Act.ofMat_is A.conjTranspose).mv⟩, fun g hg => by cases hg; exact (Act.ofMat_is A.conjTranspose).mm⟩⟩

example (A B : DMat GaussianInt) (h : A.cols = B.rows) (X : DMat GaussianInt) (hX : X.rows = B.cols) :
    ((exCustomFull A).act.mul (exCustomFull B).act).dot X.toArr = .ok ((A.mul B).mul X).toArr :=
  (C120_combine (exCustomFull_for A).1 (exCustomFull_for B).1 nofun nofun).2.1 X h hX

/-- C120: `-A`, `A+B`, `A-B` for operators, and `A+x`, `A-x` for a plain array `x`, are well-formed operators whose matrices are the
negative, the sum and the difference; shapes that differ raise. -/
theorem C120_arithmetic [StarRing R] (A B : Op R) (hA : A.WF) (hB : B.WF) (ha : A.asArr = none) :
    (∃ M, A.neg = .ok M ∧ M.WF ∧ M.den = DMat.smul (-1) A.den) ∧
    (A.den.rows = B.den.rows ∧ A.den.cols = B.den.cols →
      (∃ M, A.plus B = .ok M ∧ M.WF ∧ M.den = A.den.add B.den) ∧ ∃ M, A.sub B = .ok M ∧ M.WF ∧ M.den = A.den.add (DMat.smul (-1) B.den)) ∧
    (¬(A.den.rows = B.den.rows ∧ A.den.cols = B.den.cols) → A.plus B = .error .value ∧ A.sub B = .error .value) := by
  have hneg : ∀ M : Op R, M.WF → ∃ N, M.neg = .ok N ∧ N.WF ∧ N.den = DMat.smul (-1) M.den := by
    intro M hM
    cases hm : M.asArr with
    | some X =>
      cases M <;> simp only [Op.asArr, reduceCtorEq] at hm
      exact ⟨.arr _, rfl, by rw [Op.WF]; trivial, by rw [Op.den, Op.den]⟩
    | none =>
      obtain ⟨N, h1, h2, h3⟩ := (C70_constructors M M hM hM hm hm).2.2.2.2.1 (-1)
      refine ⟨N, ?_, h2, h3⟩
      cases M <;> first | exact h1 | simp [Op.asArr] at hm
  have hplus : ∀ M : Op R, M.WF → (A.den.rows = M.den.rows ∧ A.den.cols = M.den.cols → ∃ N, A.plus M = .ok N ∧ N.WF ∧ N.den = A.den.add M.den) ∧
      (¬(A.den.rows = M.den.rows ∧ A.den.cols = M.den.cols) → A.plus M = .error .value) := by
    intro M hM
    cases hm : M.asArr with
    | some X =>
      cases M <;> simp only [Op.asArr, reduceCtorEq] at hm
      rename_i X'
      have hl : (Op.lazy X' : Op R).WF := by rw [Op.WF]; trivial
      have := C70_constructors A (.lazy X') hA hl ha rfl
      have e : (Op.lazy X' : Op R).den = (Op.arr X').den := by rw [Op.den, Op.den]
      rw [e] at this
      exact ⟨this.1, this.2.1⟩
    | none =>
      have := C70_constructors A M hA hM ha hm
      have e : A.plus M = Op.mkAdd A M := by
        cases M <;> first | rfl | simp [Op.asArr] at hm
      rw [e]
      exact ⟨this.1, this.2.1⟩
  obtain ⟨N, n1, n2, n3⟩ := hneg B hB
  have hs : A.sub B = A.plus N := by rw [Op.sub, n1]; rfl
  have hr : N.den.rows = B.den.rows ∧ N.den.cols = B.den.cols := by rw [n3]; exact ⟨rfl, rfl⟩
  refine ⟨hneg A hA, fun h => ⟨(hplus B hB).1 h, ?_⟩, fun h => ⟨(hplus B hB).2 h, ?_⟩⟩
  · rw [hs, ← n3]
    exact (hplus N n2).1 (by rw [hr.1, hr.2]; exact h)
  · rw [hs]
    exact (hplus N n2).2 (by rw [hr.1, hr.2]; exact h)

example : ∃ M, (Op.eye 2 : Op ℤ).sub (.arr (rowsMat 2 2 [[1, 2], [3, 4]])) = .ok M ∧ M.toDense = .ok (rowsMat 2 2 [[0, -2], [-3, -3]]) := by
  obtain ⟨M, h1, h2, h3⟩ := ((C120_arithmetic (R := ℤ) (.eye 2) (.arr (rowsMat 2 2 [[1, 2], [3, 4]])) (by rw [Op.WF]; trivial) (by rw [Op.WF]; trivial) rfl).2.1
    (by simp only [Op.den]; decide)).2
  refine ⟨M, h1, ?_⟩
  rw [M.toDense_eq h2, h3]
  simp only [Op.den]
  congr 1
  refine DMat.ext rfl rfl fun i j hi hj => ?_
  have hi : i < 2 := hi
  have hj : j < 2 := hj
  interval_cases i <;> interval_cases j <;> decide

/-- C120: `SwapMatrix(rows,n)` for distinct rows multiplies by a symmetric permutation matrix that is its own inverse (so that it is
right to be its own adjoint and its own `invT`): row `rows[k]` of the result is row `rows[-1-k]`, the other rows stay. -/
theorem C120_swap {l : List ℕ} {n : ℕ} (hn : l.Nodup) (hl : ∀ i ∈ l, i < n) : ∃ S : DMat R, S.IsSq n ∧
    (∀ v : List R, v.length = n → (Act.swap l n).dot ⟨[n], v⟩ = .ok ⟨[n], S.mulVec v⟩) ∧
    (∀ X : DMat R, X.rows = n → (Act.swap l n).dot X.toArr = .ok (S.mul X).toArr) ∧ S.transpose = S ∧ S.mul S = one n ∧
    (∀ (X : DMat R) (k j : ℕ) (hk : k < l.length), X.rows = n → (S.mul X).e l[k] j = X.e l[l.length - 1 - k] j) ∧
    ∀ (X : DMat R) (i j : ℕ), i ∉ l → X.rows = n → (S.mul X).e i j = X.e i j := by
  obtain ⟨p, hp⟩ : ∃ p, p = (range n).map (Act.swapRow l) := ⟨_, rfl⟩
  have hpl : p.length = n := by rw [hp]; simp
  have hpr : p ~ range n := by rw [hp]; exact Act.swap_perm hn hl
  have his : (Act.swap l n : Act R).Is (permMat p) := by rw [hp]; exact Act.swap_is hn hl
  have hge : ∀ i < n, p.getD i 0 = Act.swapRow l i := fun i hi => by
    rw [getD_eq_getElem _ _ (by omega)]; simp [hp]
  have hmul : ∀ (X : DMat R) (i j : ℕ), X.rows = n → i < n → ((permMat p).mul X).e i j = X.e (Act.swapRow l i) j := by
    intro X i j hX hi
    by_cases hj : j < X.cols
    · rw [mul_e (A := permMat p) (by rw [permMat_rows, hpl]; exact hi) hj, permMat_cols, hpl]
      rw [Finset.sum_eq_single (Act.swapRow l i)]
      · rw [permMat, of_e (by omega) (by rw [hpl]; exact Act.swapRow_lt hn hl hi), if_pos (hge i hi), one_mul]
      · intro k hk hne
        rw [permMat, of_e (by omega) (by rw [hpl]; exact Finset.mem_range.1 hk), if_neg (by rw [hge i hi]; exact Ne.symm hne), zero_mul]
      · intro h; exact absurd (Finset.mem_range.2 (Act.swapRow_lt hn hl hi)) h
    · rw [((permMat p).mul X).out i j (fun h => hj h.2), X.out _ _ (fun h => hj h.2)]
  have hr : (permMat p : DMat R).rows = n := hpl
  have hc : (permMat p : DMat R).cols = n := hpl
  have hE : ∀ i j, i < n → j < n → (permMat p : DMat R).e i j = if Act.swapRow l i = j then 1 else 0 := fun i j hi hj => by
    rw [permMat, of_e (by omega) (by omega), hge i hi]
  refine ⟨permMat p, ⟨hr, hc⟩, fun v hv => ?_, fun X hX => his.dot X (by rw [hX, hc]), ?_, ?_, ?_, ?_⟩
  · have := his.dot_vec v (by rw [hv, hc])
    rwa [hc, hr] at this
  · refine DMat.ext rfl rfl fun i j hi hj => ?_
    have hi : i < n := by have : i < (permMat p : DMat R).cols := hi; omega
    have hj : j < n := by have : j < (permMat p : DMat R).rows := hj; omega
    rw [transpose_e, hE j i hj hi, hE i j hi hj]
    congr 1
    rw [eq_iff_iff]
    exact ⟨fun h => by rw [← h, Act.swapRow_swapRow hn], fun h => by rw [← h, Act.swapRow_swapRow hn]⟩
  · refine DMat.ext hr hc fun i j hi hj => ?_
    have hi : i < n := by have : i < (permMat p : DMat R).rows := hi; omega
    have hj : j < n := by have : j < (permMat p : DMat R).cols := hj; omega
    rw [hmul _ i j hr hi, hE _ _ (Act.swapRow_lt hn hl hi) hj, Act.swapRow_swapRow hn, one, of_e hi hj]
  · intro X k j hk hX
    rw [hmul X _ j hX (hl _ (getElem_mem _)), Act.swapRow_get hn hk]
  · intro X i j hi hX
    by_cases h : i < n
    · rw [hmul X i j hX h, Act.swapRow, if_neg hi]
    · rw [((permMat p).mul X).out i j (fun h' => h (by have := h'.1; rw [mul_rows, hr] at this; exact this)), X.out i j (fun h' => h (by omega))]

example : (Act.swap [0, 2] 3 : Act ℤ).dot ⟨[3], [5, 6, 7]⟩ = .ok ⟨[3], [7, 6, 5]⟩ := by decide +kernel

/-- C120: `MatrixLinearOperator(A)` multiplies by `A`, its adjoint, `MatrixLinearOperator` of `A.T.conj()`, by the conjugate transpose,
for complex arrays too. -/
theorem C120_matrix [StarRing R] (A : DMat R) :
    (∀ v : List R, v.length = A.cols → (Act.matrix A).dot ⟨[A.cols], v⟩ = .ok ⟨[A.rows], A.mulVec v⟩) ∧
    (∀ X : DMat R, X.rows = A.cols → (Act.matrix A).dot X.toArr = .ok (A.mul X).toArr) ∧
    (∀ v : List R, v.length = A.rows → (Act.viaH (Act.matrix A.conjTranspose)).conj.dot ⟨[A.rows], v⟩ = .ok ⟨[A.cols], A.transpose.mulVec v⟩) ∧
    ∀ X : DMat R, X.rows = A.rows → (Act.viaH (Act.matrix A.conjTranspose)).conj.dot X.toArr = .ok (A.transpose.mul X).toArr := by
  have ht : (Act.viaH (Act.matrix A.conjTranspose)).conj.Is A.transpose := by
    have := Act.conj_is (Act.viaH_is (Act.matrix_is A.conjTranspose))
    rwa [Op.conjMat_conjTranspose] at this
  exact ⟨(Act.matrix_is A).dot_vec, (Act.matrix_is A).dot, ht.dot_vec, ht.dot⟩

/-- C120: `IdentityOperator((n,n))` is the identity; one made with a shape that is not square, which the constructor accepts,
raises on vectors and returns arrays of the wrong height for matrices. -/
theorem C120_identity :
    (∀ (n : ℕ) (v : List R), v.length = n → (Act.identity n n).dot ⟨[n], v⟩ = .ok ⟨[n], v⟩) ∧
    (∀ (n : ℕ) (X : DMat R), X.rows = n → (Act.identity n n).dot X.toArr = .ok X.toArr) ∧
    ∀ m n : ℕ, m ≠ n → (∀ v : List R, v.length = n → (Act.identity m n).dot ⟨[n], v⟩ = .error .type) ∧
      ∀ X : DMat R, X.rows = n → X.cols ≠ 1 → ∃ Y : DMat R, (Act.identity m n).dot X.toArr = .ok Y.toArr ∧ Y.rows ≠ m := by
  refine ⟨fun n v hv => ?_, fun n X hX => ?_, fun m n h => ⟨fun v hv => ?_, fun X hX h1 => ⟨X, ?_, by omega⟩⟩⟩
  · simp [Act.identity, Act.dot, Act.matvec, NdArr.reshape?, NdArr.reshape, hv, bind, Except.bind]
  · rw [(Act.identity_is n).dot X hX, DMat.one_mul' X hX]
  · simp [Act.identity, Act.dot, Act.matvec, NdArr.reshape?, hv, bind, Except.bind, Ne.symm h]
  · simp [Act.identity, Act.dot, Act.matmat, toArr, h1, hX]

end Verif
