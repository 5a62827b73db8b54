import Verif.Lemmas.LinApply

namespace Verif
open List

namespace DMat
variable {R : Type} [CommRing R]

/-- Rows `i,...,i+m-1`. -/
def sub (X : DMat R) (i m : ℕ) : DMat R := of m X.cols fun r j => X.e (i + r) j

theorem sub_e {X : DMat R} {i m r j : ℕ} (hr : r < m) : (X.sub i m).e r j = X.e (i + r) j := by
  by_cases hj : j < X.cols
  · exact of_e hr hj
  · rw [X.out _ _ (by omega)]; exact (X.sub i m).out _ _ (by simp [sub]; omega)

@[simp] theorem sub_rows (X : DMat R) (i m : ℕ) : (X.sub i m).rows = m := rfl
@[simp] theorem sub_cols (X : DMat R) (i m : ℕ) : (X.sub i m).cols = X.cols := rfl

theorem sub_sub (X : DMat R) {i m j n : ℕ} (h : j + n ≤ m) : (X.sub i m).sub j n = X.sub (i + j) n := by
  refine ext rfl rfl fun r c hr _ => ?_
  simp only [sub_rows] at hr
  rw [sub_e hr, sub_e (by omega), sub_e hr, Nat.add_assoc]

theorem sub_all (X : DMat R) : X.sub 0 X.rows = X := by
  refine ext rfl rfl fun r c hr _ => ?_
  rw [sub_e (X := X) (m := X.rows) hr, Nat.zero_add]

theorem flat_append (Y : DMat R) {m n : ℕ} (h : Y.rows = m + n) : Y.flat = (Y.sub 0 m).flat ++ (Y.sub m n).flat := by
  simp only [flat, h, sub_rows, sub_cols, range_add, flatMap_append, flatMap_map]
  congr 1
  · apply flatMap_congr
    intro i hi
    apply map_congr_left
    intro j _
    rw [sub_e (mem_range.1 hi), Nat.zero_add]
  · apply flatMap_congr
    intro i hi
    apply map_congr_left
    intro j _
    rw [sub_e (mem_range.1 hi)]

theorem bdiag2_mul_top (P Q X : DMat R) : ((bdiag2 P Q).mul X).sub 0 P.rows = P.mul (X.sub 0 P.cols) := by
  refine ext rfl rfl fun i j hi hj => ?_
  simp only [sub_rows, sub_cols, mul_cols] at hi hj
  rw [sub_e hi, Nat.zero_add, mul_e (A := bdiag2 P Q) (by simp; omega) hj, mul_e (A := P) (B := X.sub 0 P.cols) hi hj, bdiag2_cols,
    Finset.sum_range_add]
  have h2 : ∑ x ∈ Finset.range Q.cols, (bdiag2 P Q).e i (P.cols + x) * X.e (P.cols + x) j = 0 :=
    Finset.sum_eq_zero fun x _ => by rw [bdiag2_e12 hi (by omega), zero_mul]
  rw [h2, add_zero]
  apply Finset.sum_congr rfl
  intro x hx
  rw [bdiag2_e11 hi (Finset.mem_range.1 hx), sub_e (Finset.mem_range.1 hx), Nat.zero_add]

theorem bdiag2_mul_bot (P Q X : DMat R) : ((bdiag2 P Q).mul X).sub P.rows Q.rows = Q.mul (X.sub P.cols Q.cols) := by
  refine ext rfl rfl fun i j hi hj => ?_
  simp only [sub_rows, sub_cols, mul_cols] at hi hj
  rw [sub_e hi, mul_e (A := bdiag2 P Q) (by simp; omega) hj, mul_e (A := Q) (B := X.sub P.cols Q.cols) hi hj, bdiag2_cols,
    Finset.sum_range_add]
  have h2 : ∑ x ∈ Finset.range P.cols, (bdiag2 P Q).e (P.rows + i) x * X.e x j = 0 :=
    Finset.sum_eq_zero fun x hx => by rw [bdiag2_e21 (by omega) (Finset.mem_range.1 hx), zero_mul]
  rw [h2, zero_add]
  apply Finset.sum_congr rfl
  intro x hx
  rw [bdiag2_e22 (by omega) (by omega), sub_e (Finset.mem_range.1 hx)]
  simp

theorem flat_bdiag2_mul (P Q X : DMat R) :
    ((bdiag2 P Q).mul X).flat = (P.mul (X.sub 0 P.cols)).flat ++ (Q.mul (X.sub P.cols Q.cols)).flat := by
  rw [flat_append ((bdiag2 P Q).mul X) (m := P.rows) (n := Q.rows) rfl, bdiag2_mul_top, bdiag2_mul_bot]

theorem flat_vstack2_mul (P Q X : DMat R) (h : P.cols = Q.cols) : ((vstack2 P Q).mul X).flat = (P.mul X).flat ++ (Q.mul X).flat := by
  rw [flat_append ((vstack2 P Q).mul X) (m := P.rows) (n := Q.rows) rfl]
  congr 2
  · refine ext rfl rfl fun i j hi hj => ?_
    simp only [sub_rows, sub_cols, mul_cols] at hi hj
    rw [sub_e hi, Nat.zero_add, mul_e (A := vstack2 P Q) (Nat.lt_add_right _ hi) hj, mul_e (A := P) hi hj]
    apply Finset.sum_congr rfl
    intro x hx
    congr 1
    rw [show (vstack2 P Q).e i x = _ from of_e (m := P.rows + Q.rows) (n := P.cols) (by omega) (Finset.mem_range.1 hx), if_pos hi]
  · refine ext rfl rfl fun i j hi hj => ?_
    simp only [sub_rows, sub_cols, mul_cols] at hi hj
    rw [sub_e hi, mul_e (A := vstack2 P Q) (Nat.add_lt_add_left hi _) hj, mul_e (A := Q) hi hj]
    rw [show (vstack2 P Q).cols = Q.cols from h]
    apply Finset.sum_congr rfl
    intro x hx
    congr 1
    rw [show (vstack2 P Q).e (P.rows + i) x = _ from of_e (m := P.rows + Q.rows) (n := P.cols) (by omega) (by rw [h]; exact Finset.mem_range.1 hx),
      if_neg (by omega)]
    simp

/-- Two groupings of the same row-major data. -/
theorem flat_regroup (X Z : DMat R) (k c d : ℕ) (h1 : X.rows = k) (h2 : X.cols = c * d) (h3 : Z.rows = k * c) (h4 : Z.cols = d)
    (h : ∀ kk < k, ∀ m < c, ∀ j < d, Z.e (kk * c + m) j = X.e kk (m * d + j)) : X.flat = Z.flat := by
  simp only [flat, h1, h2, h3, h4]
  rw [← map_id (range (k * c)), map_range_add, flatMap_assoc]
  apply flatMap_congr
  intro kk hkk
  rw [flatMap_map, ← map_id (range (c * d)), map_range_add, map_flatMap]
  apply flatMap_congr
  intro m hm
  rw [map_map]
  apply map_congr_left
  intro j hj
  exact (h kk (mem_range.1 hkk) m (mem_range.1 hm) j (mem_range.1 hj)).symm

theorem toArr_T (Y : DMat R) : Y.toArr.T = Y.transpose.toArr := by
  rw [NdArr.T, toArr_eq Y, toArr_eq Y.transpose]
  show (NdArr.ofFn [Y.rows, Y.cols] _).transpose [1, 0] = _
  unfold NdArr.transpose
  show NdArr.ofFn [Y.cols, Y.rows] _ = NdArr.ofFn [Y.cols, Y.rows] _
  apply NdArr.ofFn_congr
  intro idx hidx
  rw [mem_indices] at hidx
  obtain ⟨i, t, hi, ht, rfl⟩ := forall₂_cons_right_iff.1 hidx
  obtain ⟨j, t', hj, ht', rfl⟩ := forall₂_cons_right_iff.1 ht
  cases ht'
  show (NdArr.ofFn [Y.rows, Y.cols] fun idx => Y.e (idx.getD 0 0) (idx.getD 1 0)).get [j, i] = _
  rw [NdArr.get_ofFn _ _ (by simp [mem_indices, hi, hj])]
  simp [transpose_e]

theorem toArr_rows (X : DMat R) {i m : ℕ} (h : i + m ≤ X.rows) : X.toArr.rows i (i + m) = (X.sub i m).toArr := by
  rw [toArr_eq (X.sub i m)]
  unfold NdArr.rows
  have e : X.toArr.shape = [X.rows, X.cols] := rfl
  rw [e]
  simp only [headD_cons, tail_cons]
  rw [Nat.min_eq_left h, Nat.min_eq_left (by omega), Nat.add_sub_cancel_left]
  apply NdArr.ofFn_congr
  intro idx hidx
  rw [mem_indices] at hidx
  obtain ⟨a, t, ha, ht, rfl⟩ := forall₂_cons_right_iff.1 hidx
  obtain ⟨b, t', hb, ht', rfl⟩ := forall₂_cons_right_iff.1 ht
  cases ht'
  show X.toArr.get [i + a, b] = (X.sub i m).e a b
  rw [toArr_get X (by omega) hb, sub_e ha]

theorem ofVec_rows_T (v : List R) {i m : ℕ} (h : i + m ≤ v.length) :
    ((NdArr.mk [v.length] v).rows i (i + m)).T.data = ((ofVec v).sub i m).transpose.flat := by
  have e1 : (NdArr.mk [v.length] v).rows i (i + m) = NdArr.ofFn [m] fun idx => v.getD (i + idx.getD 0 0) 0 := by
    unfold NdArr.rows
    simp only [headD_cons, tail_cons]
    rw [Nat.min_eq_left h, Nat.min_eq_left (by omega), Nat.add_sub_cancel_left]
    apply NdArr.ofFn_congr
    intro idx hidx
    rw [mem_indices] at hidx
    obtain ⟨a, t, ha, ht, rfl⟩ := forall₂_cons_right_iff.1 hidx
    cases ht
    simp [NdArr.get, ravel]
  have e2 : (NdArr.ofFn [m] fun idx => v.getD (i + idx.getD 0 0) 0).T = NdArr.ofFn [m] fun idx => v.getD (i + idx.getD 0 0) 0 := by
    unfold NdArr.T NdArr.transpose
    show NdArr.ofFn [m] _ = _
    apply NdArr.ofFn_congr
    intro idx hidx
    rw [mem_indices] at hidx
    obtain ⟨a, t, ha, ht, rfl⟩ := forall₂_cons_right_iff.1 hidx
    cases ht
    show (NdArr.ofFn [m] fun idx => v.getD (i + idx.getD 0 0) 0).get [a] = _
    rw [NdArr.get_ofFn _ _ (by simp [mem_indices, ha])]
  rw [e1, e2]
  simp only [NdArr.ofFn, indices, flat, transpose_rows, transpose_cols, sub_rows, sub_cols]
  show _ = flatMap _ (range 1)
  simp only [map_flatMap, range_one, flatMap_cons, flatMap_nil, append_nil, map_cons, map_nil, ← map_eq_flatMap, map_map]
  apply map_congr_left
  intro a ha
  rw [transpose_e, sub_e (mem_range.1 ha)]
  have := mem_range.1 ha
  exact (of_e (m := v.length) (n := 1) (i := i + a) (j := 0) (f := fun i _ => v.getD i 0) (by omega) (by omega)).symm

end DMat

namespace Act
variable {R : Type} [CommRing R] {a b : Act R} {A B : DMat R}
open NdArr DMat

/-! ### Direct sums -/

theorem sum_range_mul_add (c d : ℕ) (f : ℕ → R) :
    ∑ x ∈ Finset.range (c * d), f x = ∑ m ∈ Finset.range c, ∑ j ∈ Finset.range d, f (m * d + j) := by
  induction c with
  | zero => simp
  | succ c ih => rw [Nat.succ_mul, Finset.sum_range_add, ih, Finset.sum_range_succ]

theorem dsumStep_eq (h : a.Is A) {c k : ℕ} (Y : DMat R) (hr : Y.rows = c * A.cols) (hk : Y.cols = k) (x : NdArr R)
    (hx : x.T.data = Y.transpose.flat) : dsumStep a c k x = .ok ((DMat.kron (one c) A).mul Y).toArr := by
  obtain ⟨Z, hZ⟩ : ∃ Z : DMat R, Z = of (k * c) A.cols fun r j => Y.e (r % c * A.cols + j) (r / c) := ⟨_, rfl⟩
  have hZr : Z.rows = k * c := by rw [hZ]; rfl
  have hZc : Z.cols = A.cols := by rw [hZ]; rfl
  have hZe : ∀ kk < k, ∀ m < c, ∀ j < A.cols, Z.e (kk * c + m) j = Y.e (m * A.cols + j) kk := by
    intro kk hkk m hm j hj
    rw [hZ]
    refine (of_e (mul_add_lt hkk hm) hj).trans ?_
    rw [Nat.mul_comm kk c, Nat.mul_add_mod, Nat.mod_eq_of_lt hm, Nat.mul_add_div (by omega), Nat.div_eq_of_lt hm, Nat.add_zero]
  have hd : x.T.data = Z.flat := by
    rw [hx]
    refine flat_regroup _ _ k c A.cols hk hr hZr hZc ?_
    intro kk hkk m hm j hj
    rw [hZe kk hkk m hm j hj, transpose_e]
  obtain ⟨W, hW⟩ : ∃ W : DMat R, W = ((DMat.kron (one c) A).mul Y).transpose := ⟨_, rfl⟩
  have hWr : W.rows = k := by rw [hW]; exact hk
  have hWc : W.cols = c * A.rows := by rw [hW]; rfl
  have hWe : ∀ kk < k, ∀ m < c, ∀ i < A.rows, (A.mul Z.transpose).transpose.e (kk * c + m) i = W.e kk (m * A.rows + i) := by
    intro kk hkk m hm i hi
    rw [transpose_e, mul_e hi (by rw [transpose_cols, hZr]; exact mul_add_lt hkk hm), hW, transpose_e,
      mul_e (A := DMat.kron (one c) A) (mul_add_lt hm hi) (by rw [hk]; exact hkk)]
    show _ = ∑ x ∈ Finset.range (c * A.cols), _
    rw [sum_range_mul_add]
    refine Eq.symm ((Finset.sum_eq_single m ?_ ?_).trans ?_)
    · intro m' hm' hne
      apply Finset.sum_eq_zero
      intro j hj
      have hj := Finset.mem_range.1 hj
      have hm' := Finset.mem_range.1 hm'
      have e := kron_e (A := one c) (B := A) (i := m) (j := m') (i' := i) (j' := j) hm hm' hi hj
      rw [e, one_e hm hm', if_neg (Ne.symm hne), zero_mul, zero_mul]
    · intro hn; exact absurd (Finset.mem_range.2 hm) hn
    · apply Finset.sum_congr rfl
      intro j hj
      have hj := Finset.mem_range.1 hj
      have e := kron_e (A := one c) (B := A) (i := m) (j := m) (i' := i) (j' := j) hm hm hi hj
      rw [transpose_e, hZe kk hkk m hm j hj, e, one_e hm hm, if_pos rfl, one_mul]
  have hfl : W.flat = (A.mul Z.transpose).transpose.flat :=
    flat_regroup _ _ k c A.rows hWr hWc (by simp [hZr]) rfl hWe
  unfold dsumStep
  have r1 : x.T.reshape? [k * c, a.cols] = .ok Z.toArr := by
    unfold reshape?
    rw [hd, if_pos (by rw [length_flat, hZr, hZc, h.cols]; simp)]
    simp only [NdArr.reshape, hd, toArr, hZr, hZc, h.cols]
  rw [r1]
  show (do
    let elems ← a.dot Z.toArr.T
    let w ← elems.T.reshape? [k, c * a.rows]
    Except.ok w.T) = _
  rw [toArr_T, h.dot Z.transpose hZc]
  have r2 : (A.mul Z.transpose).toArr.T.reshape? [k, c * a.rows] = .ok W.toArr := by
    rw [toArr_T]
    unfold reshape?
    show (if (A.mul Z.transpose).transpose.flat.length = _ then _ else _) = _
    rw [← hfl, if_pos (by rw [length_flat, hWr, hWc, h.rows]; simp)]
    simp only [NdArr.reshape, toArr, ← hfl, hWr, hWc, h.rows]
  show (do
    let w ← (A.mul Z.transpose).toArr.T.reshape? [k, c * a.rows]
    Except.ok w.T) = _
  rw [r2]
  show Except.ok W.toArr.T = _
  rw [toArr_T, hW, transpose_transpose]

/-- Corresponding lists with multiplicities. -/
abbrev IsM (l : List (Act R × ℕ)) (L : List (DMat R × ℕ)) : Prop := Forall₂ (fun a A => a.1.Is A.1 ∧ a.2 = A.2) l L

/-- The blocks, repeated. -/
def expand (L : List (DMat R × ℕ)) : List (DMat R) := L.flatMap fun A => replicate A.2 A.1

theorem dsumLoop_eq {l : List (Act R × ℕ)} {L : List (DMat R × ℕ)} (h : IsM l L) (X : DMat R) (v : NdArr R)
    (hv : ∀ i m, i + m ≤ X.rows → (v.rows i (i + m)).T.data = (X.sub i m).transpose.flat) :
    ∀ i, i + (bdiag (expand L)).cols ≤ X.rows → ∃ Y : List (DMat R), dsumLoop v X.cols l i = .ok (Y.map toArr) ∧
      (∀ B ∈ Y, B.cols = X.cols) ∧ (Y.map DMat.rows).sum = (bdiag (expand L)).rows ∧ Y.length = l.length ∧
      Y.flatMap flat = ((bdiag (expand L)).mul (X.sub i (bdiag (expand L)).cols)).flat := by
  induction h with
  | nil =>
    intro i _
    refine ⟨[], rfl, by simp, by simp [expand, bdiag], rfl, ?_⟩
    simp [expand, bdiag, flat]
  | @cons a A l L h1 h2 ih =>
    intro i hi
    obtain ⟨a, c⟩ := a
    obtain ⟨A, c'⟩ := A
    obtain ⟨h1, hcc⟩ := h1
    simp only at h1 hcc
    subst hcc
    have he : bdiag (expand ((A, c) :: L)) = bdiag2 (DMat.kron (one c) A) (bdiag (expand L)) := by
      rw [expand, flatMap_cons, bdiag_append, bdiag_replicate]; rfl
    rw [he] at hi ⊢
    simp only [bdiag2_cols, kron_cols, one_cols] at hi
    have hs := dsumStep_eq h1 (X.sub i (c * A.cols)) (c := c) (k := X.cols) rfl rfl _ (hv i (c * A.cols) (by omega))
    obtain ⟨Y, e, hY1, hY2, hY3, hY4⟩ := ih (i + c * A.cols) (by omega)
    refine ⟨(DMat.kron (one c) A).mul (X.sub i (c * A.cols)) :: Y, ?_, ?_, ?_, ?_, ?_⟩
    · simp only [dsumLoop, h1.cols]
      rw [hs]
      show (do
        let ys ← dsumLoop v X.cols l (i + c * A.cols)
        Except.ok (_ :: ys)) = _
      rw [e]; rfl
    · intro B hB
      rcases mem_cons.1 hB with rfl | hB
      · rfl
      · exact hY1 B hB
    · simp [hY2]
    · simp [hY3]
    · rw [flatMap_cons, hY4, flat_bdiag2_mul]
      simp only [bdiag2_cols, kron_cols, one_cols]
      rw [DMat.sub_sub X (by omega), DMat.sub_sub X (by omega), Nat.add_zero]

theorem concat0_toArr (Y : List (DMat R)) (hne : Y ≠ []) {k : ℕ} (h : ∀ B ∈ Y, B.cols = k) :
    concat0 (Y.map toArr) = .ok ⟨[(Y.map DMat.rows).sum, k], Y.flatMap flat⟩ := by
  cases Y with
  | nil => exact absurd rfl hne
  | cons B Y =>
    simp only [map_cons, concat0]
    have hk := h B (by simp)
    rw [if_pos]
    · simp only [toArr, tail_cons, hk]
      congr 2
      · simp only [map_map, map_cons, sum_cons]; rfl
      · simp only [flatMap_cons, flatMap_map]; rfl
    · intro y hy
      obtain ⟨C, hC, rfl⟩ := mem_map.1 hy
      simp [toArr, hk, h C (by simp [hC])]

theorem directMM_eq {l : List (Act R × ℕ)} {L : List (DMat R × ℕ)} (h : IsM l L) (hne : l ≠ []) (X : DMat R)
    (hX : X.rows = (bdiag (expand L)).cols) : directMM l X.toArr = .ok ((bdiag (expand L)).mul X).toArr := by
  obtain ⟨Y, e, hY1, hY2, hY3, hY4⟩ := dsumLoop_eq h X X.toArr (fun i m him => by rw [toArr_rows X him, toArr_T]; rfl) 0 (by omega)
  unfold directMM
  show (do
    let ys ← dsumLoop X.toArr X.cols l 0
    concat0 ys) = _
  rw [e]
  show concat0 (Y.map toArr) = _
  rw [concat0_toArr Y (by rintro rfl; exact hne (by simpa using hY3.symm)) hY1, hY2, hY4, ← hX, sub_all]
  rfl

theorem directMM_vec {l : List (Act R × ℕ)} {L : List (DMat R × ℕ)} (h : IsM l L) (hne : l ≠ []) (v : List R)
    (hv : v.length = (bdiag (expand L)).cols) :
    directMM l ⟨[v.length], v⟩ = .ok ((bdiag (expand L)).mul (ofVec v)).toArr := by
  obtain ⟨Y, e, hY1, hY2, hY3, hY4⟩ := dsumLoop_eq h (ofVec v) ⟨[v.length], v⟩ (fun i m him => ofVec_rows_T v him) 0
    (by rw [← hv]; exact (Nat.zero_add _).le)
  unfold directMM
  show (do
    let ys ← dsumLoop ⟨[v.length], v⟩ 1 l 0
    concat0 ys) = _
  rw [show dsumLoop ⟨[v.length], v⟩ 1 l 0 = .ok (Y.map toArr) from e]
  show concat0 (Y.map toArr) = _
  rw [concat0_toArr Y (by rintro rfl; exact hne (by simpa using hY3.symm)) hY1, hY2, hY4, ← hv]
  rw [show (ofVec v).sub 0 v.length = ofVec v from sub_all (ofVec v)]
  rfl

end Act
end Verif
