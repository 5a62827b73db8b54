import Verif.Spec.NullSpace
import Verif.Lemmas.Solver
import Verif.Lemmas.DenseInv

/-! Lemmas for the dense null space routine. -/
namespace Verif
open List DMat
variable {𝕜 : Type} [RCLike 𝕜]

/-- In a decreasing list the elements above a threshold come first. -/
theorem lt_countP_iff {S : List ℝ} (h : S.Pairwise (· ≥ ·)) (t : ℝ) [DecidablePred fun s : ℝ => s > t] {i : ℕ} (hi : i < S.length) :
    i < S.countP (fun s => decide (s > t)) ↔ S.getD i 0 > t := by
  induction S generalizing i with
  | nil => simp at hi
  | cons a l ih =>
    rw [pairwise_cons] at h
    by_cases ha : a > t
    · rw [countP_cons_of_pos (by simpa using ha)]
      cases i with
      | zero => simpa using ha
      | succ i => simpa using ih h.2 (by simpa using hi)
    · have h0 : l.countP (fun s => decide (s > t)) = 0 := by
        rw [countP_eq_zero]
        intro x hx
        have := h.1 x hx
        simp only [decide_eq_true_eq, gt_iff_lt, not_lt] at ha ⊢
        exact this.trans ha
      rw [countP_cons_of_neg (by simpa using ha), h0]
      simp only [not_lt_zero, gt_iff_lt, false_iff, not_lt]
      cases i with
      | zero => simpa using ha
      | succ i =>
        have hi' : i < l.length := by simpa using hi
        have := h.1 l[i] (getElem_mem hi')
        simp only [getD_eq_getElem?_getD, getElem?_cons_succ, getElem?_eq_getElem hi', Option.getD_some]
        exact this.trans (not_lt.1 ha)

theorem sigma_mulVec (m n : ℕ) (S : List ℝ) {y : List 𝕜} (hy : y.length = n) {i : ℕ} (hi : i < m) :
    ((sigmaMat m n S : DMat 𝕜).mulVec y).getD i 0 = (S.getD i 0 : ℝ) * y.getD i 0 := by
  rw [getD_mulVec (by exact hi)]
  change ∑ j ∈ Finset.range n, (sigmaMat m n S : DMat 𝕜).e i j * y.getD j 0 = _
  by_cases hin : i < n
  · rw [Finset.sum_eq_single_of_mem i (Finset.mem_range.2 hin)]
    · rw [sigmaMat, of_e hi hin, if_pos rfl]
    · intro j hj hne
      rw [sigmaMat, of_e hi (Finset.mem_range.1 hj), if_neg (Ne.symm hne), zero_mul]
  · rw [getD_eq_default y _ (by omega), mul_zero]
    refine Finset.sum_eq_zero fun j hj => ?_
    have hj := Finset.mem_range.1 hj
    rw [sigmaMat, of_e hi hj, if_neg (by omega), zero_mul]

/-- As a matrix with one column. -/
def colMat (v : List 𝕜) : DMat 𝕜 := DMat.of v.length 1 fun i _ => v.getD i 0

theorem colMat_col (v : List 𝕜) : (colMat v).col 0 = v := by
  refine vec_ext (by simp [colMat]) fun i hi => ?_
  have hi' : i < v.length := by simpa [colMat] using hi
  rw [getD_col _ (by exact hi'), colMat, of_e hi' (by omega)]

theorem nrm2_col {M : DMat 𝕜} (hM : M.cols = 1) : ((nrm2 (M.col 0) : ℝ) : 𝕜) = (M.conjTranspose.mul M).e 0 0 := by
  rw [mul_e (by simp [hM]) (by simp [hM]), nrm2]
  simp only [length_col, conjTranspose_cols]
  push_cast
  refine Finset.sum_congr rfl fun i hi => ?_
  rw [getD_col _ (Finset.mem_range.1 hi), conjTranspose_e]
  exact (RCLike.conj_mul _).symm

theorem nrm2_unitary {A : DMat 𝕜} (h : A.conjTranspose.mul A = DMat.one A.cols) {x : List 𝕜} (hx : x.length = A.cols) :
    nrm2 (A.mulVec x) = nrm2 x := by
  have h1 : ((nrm2 (A.mulVec x) : ℝ) : 𝕜) = ((nrm2 x : ℝ) : 𝕜) := by
    have hc : A.cols = (colMat x).rows := hx.symm
    have e : A.mulVec x = (A.mul (colMat x)).col 0 := by
      rw [← mulVec_col _ _ hc (by simp [colMat]), colMat_col]
    rw [e, nrm2_col rfl]
    conv_rhs => rw [← colMat_col x, nrm2_col rfl]
    rw [conjTranspose_mul _ _ hc, mul_assoc' _ _ _ (by simp [colMat, hx]), ← mul_assoc' A.conjTranspose _ _ (by simp), h,
      one_mul' _ (by exact hx)]
  exact_mod_cast h1

theorem nrm2_le {v w : List 𝕜} {c : ℝ} (hc : 0 ≤ c) {n : ℕ} (hv : v.length ≤ n) (hw : w.length = n)
    (h : ∀ i < v.length, ‖v.getD i 0‖ ≤ c * ‖w.getD i 0‖) : nrm2 v ≤ c ^ 2 * nrm2 w := by
  unfold nrm2
  rw [Finset.mul_sum, hw]
  refine (Finset.sum_le_sum fun i hi => ?_).trans (Finset.sum_le_sum_of_subset_of_nonneg (Finset.range_mono hv) fun i _ _ => by positivity)
  have h1 := h i (Finset.mem_range.1 hi)
  calc ‖v.getD i 0‖ ^ 2 ≤ (c * ‖w.getD i 0‖) ^ 2 := pow_le_pow_left₀ (norm_nonneg _) h1 2
    _ = c ^ 2 * ‖w.getD i 0‖ ^ 2 := by ring

variable {C : DMat 𝕜} {d : SVD 𝕜}

/-- The number of singular values above the threshold. -/
noncomputable def SVD.rank (d : SVD 𝕜) : ℕ := by
  classical exact d.S.countP fun s => decide (s > 1e-5)

theorem orthogonalComplement_eq (d : SVD 𝕜) : orthogonalComplement d =
    (DMat.of (d.VH.rows - d.rank) d.VH.cols fun i j => d.VH.e (d.rank + i) j).conjTranspose := rfl

theorem IsSVD.rank_le (h : IsSVD C d) : d.rank ≤ C.cols := by
  have : d.rank ≤ d.S.length := countP_le_length
  have := h.len
  omega

theorem oc_rows (h : IsSVD C d) : (orthogonalComplement d).rows = C.cols := h.Vsq.2

theorem oc_cols (h : IsSVD C d) : (orthogonalComplement d).cols = C.cols - d.rank := by
  rw [orthogonalComplement_eq]
  change d.VH.rows - d.rank = _
  rw [h.Vsq.1]

theorem oc_e (h : IsSVD C d) {i j : ℕ} (hi : i < C.cols) (hj : j < C.cols - d.rank) :
    (orthogonalComplement d).e i j = star (d.VH.e (d.rank + j) i) := by
  rw [orthogonalComplement_eq, conjTranspose_e, of_e (by rw [h.Vsq.1]; exact hj) (by rw [h.Vsq.2]; exact hi)]

theorem IsSVD.V' (h : IsSVD C d) : d.VH.mul d.VH.conjTranspose = DMat.one C.cols :=
  mul_eq_one_comm ⟨by simp [h.Vsq.2], by simp [h.Vsq.1]⟩ h.Vsq h.V

theorem oc_orth (h : IsSVD C d) : (orthogonalComplement d).conjTranspose.mul (orthogonalComplement d) = DMat.one (orthogonalComplement d).cols := by
  refine DMat.ext rfl rfl fun i j hi hj => ?_
  have hc := oc_cols h
  have hr := h.rank_le
  simp only [mul_rows, mul_cols, conjTranspose_rows] at hi hj
  rw [mul_e (by exact hi) hj, one_e hi hj, conjTranspose_cols, oc_rows h]
  rw [hc] at hi hj
  have e := congrArg (fun M => M.e (d.rank + i) (d.rank + j)) h.V'
  beta_reduce at e
  rw [mul_e (by rw [h.Vsq.1]; omega) (by simp [h.Vsq.1]; omega), one_e (by omega) (by omega), h.Vsq.2] at e
  simp only [Nat.add_left_cancel_iff] at e
  rw [← e]
  refine Finset.sum_congr rfl fun k hk => ?_
  have hk := Finset.mem_range.1 hk
  rw [conjTranspose_e, conjTranspose_e, oc_e h hk hi, oc_e h hk hj, star_star]

theorem oc_mulVec (h : IsSVD C d) {a : List 𝕜} (ha : a.length = C.cols - d.rank) :
    (orthogonalComplement d).mulVec a = d.VH.conjTranspose.mulVec (replicate d.rank 0 ++ a) := by
  have hr := h.rank_le
  refine vec_ext (by simp [oc_rows h, h.Vsq.2]) fun i hi => ?_
  rw [length_mulVec, oc_rows h] at hi
  rw [getD_mulVec (by rwa [oc_rows h]), getD_mulVec (by simpa [h.Vsq.2] using hi), oc_cols h, conjTranspose_cols, h.Vsq.1]
  obtain ⟨k, hk⟩ : ∃ k, C.cols = d.rank + k := ⟨C.cols - d.rank, by omega⟩
  have hk' : C.cols - d.rank = k := by omega
  rw [hk', hk, Finset.sum_range_add]
  have h0 : ∑ x ∈ Finset.range d.rank, d.VH.conjTranspose.e i x * (replicate d.rank 0 ++ a).getD x 0 = 0 := by
    refine Finset.sum_eq_zero fun x hx => ?_
    have hx := Finset.mem_range.1 hx
    rw [getD_append _ _ _ _ (by simpa using hx)]
    simp [getD_eq_getElem?_getD, hx]
  rw [h0, zero_add]
  refine Finset.sum_congr rfl fun x hx => ?_
  have hx := Finset.mem_range.1 hx
  rw [oc_e h hi (by omega), conjTranspose_e, getD_append_right _ _ _ _ (by simp)]
  simp

theorem oc_coords (h : IsSVD C d) {a : List 𝕜} (ha : a.length = C.cols - d.rank) :
    d.VH.mulVec ((orthogonalComplement d).mulVec a) = replicate d.rank 0 ++ a := by
  have hr := h.rank_le
  rw [oc_mulVec h ha, ← mulVec_mul _ _ _ (by simp [h.Vsq.2]), h.V', mulVec_one _ (by simp [ha]; omega)]

/-- `v` is in the span exactly if its first `rank` coordinates in the right singular basis vanish. -/
theorem oc_span (h : IsSVD C d) {v : List 𝕜} (hv : v.length = C.cols) :
    (∃ a, a.length = (orthogonalComplement d).cols ∧ (orthogonalComplement d).mulVec a = v) ↔ ∀ i < d.rank, (d.VH.mulVec v).getD i 0 = 0 := by
  have hr := h.rank_le
  rw [oc_cols h]
  constructor
  · rintro ⟨a, ha, rfl⟩ i hi
    rw [oc_coords h ha, getD_append _ _ _ _ (by simpa using hi)]
    simp [getD_eq_getElem?_getD, hi]
  · intro hz
    have hl : (d.VH.mulVec v).length = C.cols := by simp [h.Vsq.1]
    refine ⟨(d.VH.mulVec v).drop d.rank, by simp [hl], ?_⟩
    have e : replicate d.rank 0 ++ (d.VH.mulVec v).drop d.rank = d.VH.mulVec v := by
      conv_rhs => rw [← take_append_drop d.rank (d.VH.mulVec v)]
      congr 1
      refine vec_ext (by simp [hl, hr]) fun i hi => ?_
      have hi : i < d.rank := by simpa using hi
      have := hz i hi
      rw [getD_eq_getElem?_getD] at this
      simp [getD_eq_getElem?_getD, hi, getElem?_take_of_lt, this]
    rw [oc_mulVec h (by simp [hl]), e, ← mulVec_mul _ _ _ (by simp [h.Vsq.1]), h.V, mulVec_one _ hv]

theorem svd_mulVec (h : IsSVD C d) (v : List 𝕜) : C.mulVec v = d.U.mulVec ((sigmaMat C.rows C.cols d.S).mulVec (d.VH.mulVec v)) := by
  conv_lhs => rw [h.eq]
  rw [mulVec_mul _ _ _ (by simp [sigmaMat, h.Vsq.1]), mulVec_mul _ _ _ (by simp [sigmaMat, h.Usq.2])]

theorem null_iff (h : IsSVD C d) (v : List 𝕜) : Null C v ↔ ∀ i < C.rows, ((d.S.getD i 0 : ℝ) : 𝕜) * (d.VH.mulVec v).getD i 0 = 0 := by
  have hy : (d.VH.mulVec v).length = C.cols := by simp [h.Vsq.1]
  have hz : Null C v ↔ (sigmaMat C.rows C.cols d.S).mulVec (d.VH.mulVec v) = replicate C.rows 0 := by
    unfold Null
    rw [svd_mulVec h]
    constructor
    · intro e
      have := congrArg d.U.conjTranspose.mulVec e
      rw [← mulVec_mul _ _ _ (by simp), h.U, mulVec_one _ (by simp [sigmaMat]), mulVec_replicate_zero] at this
      rw [this]; simp [h.Usq.2]
    · intro e
      rw [e, mulVec_replicate_zero, h.Usq.1]
  rw [hz]
  constructor
  · intro e i hi
    rw [← sigma_mulVec _ _ _ hy hi, e]
    simp [getD_eq_getElem?_getD, hi]
  · intro e
    refine vec_ext (by simp [sigmaMat]) fun i hi => ?_
    have hi : i < C.rows := by simpa [sigmaMat] using hi
    rw [sigma_mulVec _ _ _ hy hi, e i hi]
    simp [getD_eq_getElem?_getD, hi]

theorem rank_spec (h : IsSVD C d) {i : ℕ} (hi : i < d.S.length) : i < d.rank ↔ d.S.getD i 0 > 1e-5 := by
  classical exact lt_countP_iff h.sorted _ hi

theorem rank_le_len (d : SVD 𝕜) : d.rank ≤ d.S.length := countP_le_length

end Verif
