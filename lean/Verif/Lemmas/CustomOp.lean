import Verif.Spec.CustomOp
import Verif.Lemmas.LinApply7
import Verif.Lemmas.LinApply8

namespace Verif
open List

namespace Act
variable {R : Type} [CommRing R] {a : Act R} {A : DMat R}
open NdArr DMat

theorem columns_toArr (X : DMat R) :
    X.toArr.columns = (range X.cols).map fun j => ⟨[X.rows, 1], (range X.rows).map fun i => X.e i j⟩ := by
  unfold NdArr.columns
  apply map_congr_left
  intro j hj
  congr 1
  apply map_congr_left
  intro i hi
  exact toArr_get X (mem_range.1 hi) (mem_range.1 hj)

/-- `matvec` of a column. -/
theorem matvec_col (hr : a.rows = A.rows) (hc : a.cols = A.cols)
    (hv : ∀ v : List R, v.length = A.cols → ∀ s, s = [A.cols] ∨ s = [A.cols, 1] → ∃ t, a.mv ⟨s, v⟩ = .ok ⟨t, A.mulVec v⟩)
    (v : List R) (hl : v.length = A.cols) : a.matvec ⟨[A.cols, 1], v⟩ = .ok ⟨[A.rows, 1], A.mulVec v⟩ := by
  obtain ⟨t, ht⟩ := hv v hl _ (Or.inr rfl)
  unfold Act.matvec
  rw [if_neg (by simp [hc]), ht]
  simp [bind, Except.bind, reshape?, NdArr.reshape, hr]

/-- The default `_matmat` multiplies by `A` if the matrix has a column. -/
theorem byColumns_eq (hr : a.rows = A.rows) (hc : a.cols = A.cols)
    (hv : ∀ v : List R, v.length = A.cols → ∀ s, s = [A.cols] ∨ s = [A.cols, 1] → ∃ t, a.mv ⟨s, v⟩ = .ok ⟨t, A.mulVec v⟩)
    (X : DMat R) (hX : X.rows = A.cols) (h0 : X.cols ≠ 0) : a.byColumns X.toArr = .ok (A.mul X).toArr := by
  unfold byColumns
  have e : X.toArr.columns.mapM a.matvec =
      .ok ((range X.cols).map fun j => (⟨[A.rows, 1], A.mulVec ((range X.rows).map fun i => X.e i j)⟩ : NdArr R)) := by
    rw [columns_toArr, mapM_ok (g := fun y : NdArr R => ⟨[A.rows, 1], A.mulVec y.data⟩), map_map]
    · rfl
    · intro y hy
      obtain ⟨j, _, rfl⟩ := mem_map.1 hy
      rw [hX]
      exact matvec_col hr hc hv _ (by simp)
  rw [e]
  show hstack _ = _
  obtain ⟨L, hL⟩ : ∃ L : List (NdArr R), L = (range X.cols).map fun j =>
    (⟨[A.rows, 1], A.mulVec ((range X.rows).map fun i => X.e i j)⟩ : NdArr R) := ⟨_, rfl⟩
  have hlen : L.length = X.cols := by rw [hL]; simp
  have hsh : ∀ z ∈ L, z.shape = [A.rows, 1] := by
    intro z hz; rw [hL] at hz; obtain ⟨j, _, rfl⟩ := mem_map.1 hz; rfl
  rw [← hL]
  cases hLL : L with
  | nil => rw [hLL] at hlen; simp at hlen; omega
  | cons y ys =>
    have hy : y.shape.headD 0 = A.rows := by rw [hsh y (by rw [hLL]; simp)]; rfl
    rw [hstack]
    rw [hy, if_pos (fun z hz => hsh z (by rw [hLL]; exact hz)), mul_toArr]
    have hl : ys.length + 1 = X.cols := by rw [← hlen, hLL]; rfl
    rw [hl, ← hLL]
    congr 1
    apply NdArr.ofFn_congr
    intro idx h
    have h0 := lt_of_mem_indices h (i := 0) (by simp)
    have h1 := lt_of_mem_indices h (i := 1) (by simp)
    have h0 : idx.getD 0 0 < A.rows := h0
    have h1 : idx.getD 1 0 < X.cols := h1
    rw [getD_eq_getElem _ _ (by omega)]
    have : L[idx.getD 1 0]'(by omega) = ⟨[A.rows, 1], A.mulVec ((range X.rows).map fun i => X.e i (idx.getD 1 0))⟩ := by
      simp only [hL, getElem_map, getElem_range]
    rw [this]
    have hg : (⟨[A.rows, 1], A.mulVec ((range X.rows).map fun i => X.e i (idx.getD 1 0))⟩ : NdArr R).get [idx.getD 0 0, 0] =
        (A.mulVec ((range X.rows).map fun i => X.e i (idx.getD 1 0))).getD (idx.getD 0 0) 0 := by
      simp [NdArr.get, ravel]
    rw [hg, getD_mulVec h0]
    apply Finset.sum_congr rfl
    intro j hj
    congr 1
    rw [getD_eq_getElem _ _ (by simpa [hX] using hj)]
    simp

/-- `byColumns` raises without columns. -/
theorem byColumns_empty (a : Act R) (X : DMat R) (h0 : X.cols = 0) : a.byColumns X.toArr = .error .value := by
  unfold byColumns
  rw [columns_toArr, h0]
  rfl

theorem swapRow_get {l : List ℕ} (hn : l.Nodup) {k : ℕ} (hk : k < l.length) :
    swapRow l l[k] = l[l.length - 1 - k] := by
  unfold swapRow
  rw [if_pos (getElem_mem _), hn.idxOf_getElem, getD_eq_getElem _ _ (by simpa), getElem_reverse]

theorem swapRow_swapRow {l : List ℕ} (hn : l.Nodup) (i : ℕ) : swapRow l (swapRow l i) = i := by
  by_cases h : i ∈ l
  · obtain ⟨k, hk, rfl⟩ := getElem_of_mem h
    rw [swapRow_get hn hk, swapRow_get hn]
    congr 1
    omega
  · have : swapRow l i = i := if_neg h
    rw [this, this]

theorem swapRow_lt {l : List ℕ} {n : ℕ} (hn : l.Nodup) (hl : ∀ i ∈ l, i < n) {i : ℕ} (hi : i < n) : swapRow l i < n := by
  by_cases h : i ∈ l
  · obtain ⟨k, hk, rfl⟩ := getElem_of_mem h
    rw [swapRow_get hn hk]
    exact hl _ (getElem_mem _)
  · rw [swapRow, if_neg h]; exact hi

/-- The rows of `SwapMatrix` as a permutation. -/
theorem swap_perm {l : List ℕ} {n : ℕ} (hn : l.Nodup) (hl : ∀ i ∈ l, i < n) : (range n).map (swapRow l) ~ range n :=
  Op.map_perm_range (fun _ hi => swapRow_lt hn hl hi) fun i _ j _ h => by
    rw [← swapRow_swapRow hn i, h, swapRow_swapRow hn]

theorem swap_is {l : List ℕ} {n : ℕ} (hn : l.Nodup) (hl : ∀ i ∈ l, i < n) :
    (swap l n : Act R).Is (permMat ((range n).map (swapRow l))) := by
  have h := perm_is (R := R) (p := (range n).map (swapRow l)) (by rw [length_map, length_range]; exact swap_perm hn hl)
  have e : (swap l n : Act R) = perm ((range n).map (swapRow l)) := by
    unfold swap perm
    simp
  rw [e]; exact h

theorem matrix_is (A : DMat R) : (matrix A).Is A where
  rows := rfl
  cols := rfl
  mm := (ofMat_is A).mm
  mv v hv s hs := by
    refine ⟨[A.rows, 1], ?_⟩
    have := (ofMat_is A).matmat (ofVec v) hv
    rw [toArr_ofVec] at this
    show byMatrix _ _ = _
    unfold byMatrix
    have e : NdArr.reshape (⟨s, v⟩ : NdArr R) [v.length, 1] = ⟨[v.length, 1], v⟩ := rfl
    show Act.matmat _ (NdArr.reshape ⟨s, v⟩ [v.length, 1]) = _
    rw [e]
    refine Eq.trans ?_ (this.trans ?_)
    · rfl
    · rw [toArr, mulVec_eq_flat]; rfl

theorem identity_is (n : ℕ) : (identity n n : Act R).Is (one n) := eye_is n

/-- The parts of `Is` that one product needs. -/
theorem dot_of (hr : a.rows = A.rows) (hc : a.cols = A.cols)
    (hv : ∀ v : List R, v.length = A.cols → ∀ s, s = [A.cols] ∨ s = [A.cols, 1] → ∃ t, a.mv ⟨s, v⟩ = .ok ⟨t, A.mulVec v⟩)
    (X : DMat R) (hX : X.rows = A.cols) (hm : a.mm X.toArr = .ok (A.mul X).toArr) : a.dot X.toArr = .ok (A.mul X).toArr := by
  unfold Act.dot
  by_cases h1 : X.cols = 1
  · rw [if_pos (by simp [toArr, h1])]
    have := matvec_col hr hc hv X.flat (by rw [length_flat, h1, hX, mul_one])
    rw [← flat_mul_col A X h1] at this
    rw [toArr, toArr, mul_rows, mul_cols, h1, hX]
    exact this
  · rw [if_neg (by simp [toArr, h1]), if_pos (by simp [toArr])]
    unfold Act.matmat
    rw [if_neg (by simp [toArr]), if_neg (by simp [toArr, hc, hX])]
    exact hm

theorem dot_vec_of (hr : a.rows = A.rows) (hc : a.cols = A.cols)
    (hv : ∀ v : List R, v.length = A.cols → ∀ s, s = [A.cols] ∨ s = [A.cols, 1] → ∃ t, a.mv ⟨s, v⟩ = .ok ⟨t, A.mulVec v⟩)
    (v : List R) (hl : v.length = A.cols) : a.dot ⟨[A.cols], v⟩ = .ok ⟨[A.rows], A.mulVec v⟩ := by
  obtain ⟨t, ht⟩ := hv v hl _ (Or.inl rfl)
  unfold Act.dot Act.matvec
  rw [if_pos (by simp), if_neg (by simp [hc]), ht]
  simp [bind, Except.bind, reshape?, NdArr.reshape, hr]

end Act

namespace CustomOp
variable {R : Type} [CommRing R] {c : CustomOp R} {A : DMat R}
open NdArr DMat

theorem For.vec (h : c.For A) : ∀ v : List R, v.length = A.cols → ∀ s, s = [A.cols] ∨ s = [A.cols, 1] →
    ∃ t, c.act.mv ⟨s, v⟩ = .ok ⟨t, A.mulVec v⟩ := by
  obtain ⟨f, e, hf⟩ := h.mv
  intro v hv s hs
  obtain ⟨t, ht⟩ := hf v hv s hs
  exact ⟨t, by show call c.mv _ _ = _; rw [e]; exact ht⟩

theorem For.mat (h : c.For A) (X : DMat R) (hX : X.rows = A.cols) (h0 : X.cols ≠ 0 ∨ c.mm ≠ none) :
    c.act.mm X.toArr = .ok (A.mul X).toArr := by
  unfold act
  cases e : c.mm with
  | some g => exact h.mm g e X hX
  | none => exact Act.byColumns_eq (a := ⟨c.rows, c.cols, call c.mv .type, .ok⟩) h.rows h.cols h.vec X hX (h0.resolve_right (fun h => h e))

theorem For.is (h : c.For A) (h0 : c.mm ≠ none) : c.act.Is A := ⟨h.rows, h.cols, fun X hX => h.mat X hX (Or.inr h0), h.vec⟩

section star
variable [StarRing R]

theorem conjTranspose_conjTranspose' (A : DMat R) : A.conjTranspose.conjTranspose = A :=
  DMat.ext rfl rfl fun i j hi hj => by
    have hi : i < A.rows := hi
    have hj : j < A.cols := hj
    rw [conjTranspose, of_e (by exact hi) (by exact hj), conjTranspose, of_e hj hi, star_star]

theorem For.H (h : c.For A) (h' : c.ForAdj A) : c.H.For A.conjTranspose ∧ c.H.ForAdj A.conjTranspose :=
  ⟨⟨h.cols, h.rows, h'.rmv, h'.rmm⟩, ⟨by rw [conjTranspose_conjTranspose']; exact h.mv, by rw [conjTranspose_conjTranspose']; exact h.mm⟩⟩

theorem For.rvec (h' : c.ForAdj A) : ∀ v : List R, v.length = A.rows → ∀ s, s = [A.rows] ∨ s = [A.rows, 1] →
    ∃ t, c.ract.mv ⟨s, v⟩ = .ok ⟨t, A.conjTranspose.mulVec v⟩ := by
  obtain ⟨f, e, hf⟩ := h'.rmv
  intro v hv s hs
  obtain ⟨t, ht⟩ := hf v hv s hs
  exact ⟨t, by show call c.rmv _ _ = _; rw [e]; exact ht⟩

theorem For.rmat (h : c.For A) (h' : c.ForAdj A) (X : DMat R) (hX : X.rows = A.rows) (h0 : X.cols ≠ 0 ∨ c.rmm ≠ none) :
    c.ract.mm X.toArr = .ok (A.conjTranspose.mul X).toArr := by
  unfold ract
  cases e : c.rmm with
  | some g => exact h'.rmm g e X hX
  | none =>
    show c.H.act.matmat X.toArr = _
    unfold Act.matmat
    have : X.rows = c.rows := by rw [hX, h.rows]
    rw [if_neg (by simp [toArr]), if_neg (by simp [toArr, this, act, CustomOp.H])]
    exact (h.H h').1.mat X hX h0

theorem For.tvec (h' : c.ForAdj A) : ∀ v : List R, v.length = A.rows → ∀ s, s = [A.rows] ∨ s = [A.rows, 1] →
    ∃ t, c.T.mv ⟨s, v⟩ = .ok ⟨t, A.transpose.mulVec v⟩ := by
  intro v hv s hs
  obtain ⟨t, ht⟩ := For.rvec h' (v.map star) (by simpa using hv) s hs
  refine ⟨t, ?_⟩
  show (do Except.ok (← c.ract.mv (NdArr.conj ⟨s, v⟩)).conj) = _
  have e : NdArr.conj (⟨s, v⟩ : NdArr R) = ⟨s, v.map star⟩ := rfl
  rw [e, ht, ← Op.conjMat_conjTranspose, ← Act.conjMat_mulVec]
  rfl

theorem For.tmat (h : c.For A) (h' : c.ForAdj A) (X : DMat R) (hX : X.rows = A.rows) (h0 : X.cols ≠ 0 ∨ c.rmm ≠ none) :
    c.T.mm X.toArr = .ok (A.transpose.mul X).toArr := by
  show (do Except.ok (← c.ract.mm X.toArr.conj).conj) = _
  rw [Act.conj_toArr, h.rmat h' (Act.conjMat X) hX h0, ← Op.conjMat_conjTranspose]
  show Except.ok (NdArr.conj _) = _
  rw [Act.conj_toArr, Act.conjMat_mul, Act.conjMat_conjMat]

end star
end CustomOp
end Verif
