import Verif.Lemmas.LinApply8

namespace Verif
open List

namespace Act
variable {R : Type} [CommRing R]
open NdArr DMat

/-! ### The adjoint side of concatenations -/

/-- `m` consecutive slices of `r` rows. -/
def pieces (X : DMat R) (r : ℕ) : ℕ → ℕ → List (DMat R)
  | _, 0 => []
  | off, m + 1 => X.sub off r :: pieces X r (off + r) m

/-- The products of the transposes with these slices. -/
def prods (X : DMat R) (r : ℕ) : ℕ → List (DMat R) → List (DMat R)
  | _, [] => []
  | off, A :: L => A.transpose.mul (X.sub off r) :: prods X r (off + r) L

theorem pieces_eq (X : DMat R) (r : ℕ) : ∀ m off, off + m * r ≤ X.rows →
    (List.range m).map (fun i => X.toArr.rows (off + i * r) (off + (i + 1) * r)) = (pieces X r off m).map toArr
  | 0, _, _ => rfl
  | m + 1, off, h => by
    rw [Nat.succ_mul] at h
    rw [range_succ_eq_map, map_cons, map_map, pieces, map_cons, ← pieces_eq X r m (off + r) (by omega)]
    have e : off + 0 * r = off := by simp
    have e' : off + (0 + 1) * r = off + r := by simp
    rw [e, e', toArr_rows X (Nat.le_trans (Nat.add_le_add_left (Nat.le_add_left r (m * r)) off) h)]
    congr 1
    apply map_congr_left
    intro i _
    show X.toArr.rows (off + (i + 1) * r) (off + (i + 1 + 1) * r) = X.toArr.rows (off + r + i * r) (off + r + (i + 1) * r)
    congr 1 <;> ring

theorem dotEach_eq (X : DMat R) {r : ℕ} : ∀ {l : List (Act R)} {L : List (DMat R)} (off : ℕ), IsL l (L.map DMat.transpose) →
    (∀ A ∈ L, A.rows = r) → dotEach l ((pieces X r off L.length).map toArr) = .ok ((prods X r off L).map toArr)
  | [], [], _, _, _ => rfl
  | a :: l, A :: L, off, h, hr => by
    obtain ⟨h1, h2⟩ := forall₂_cons.1 h
    show (do
      let y ← a.dot (X.sub off r).toArr
      let ys ← dotEach l ((pieces X r (off + r) L.length).map toArr)
      Except.ok (y :: ys)) = _
    rw [h1.dot (X.sub off r) (hr A (by simp)).symm, dotEach_eq X (off + r) h2 fun B hB => hr B (by simp [hB])]
    rfl

theorem foldlM_add (n k : ℕ) : ∀ (Ys : List (DMat R)) (acc : DMat R), acc.rows = n → acc.cols = k →
    (∀ Y ∈ Ys, Y.rows = n ∧ Y.cols = k) → (Ys.map toArr).foldlM add? acc.toArr = .ok (Ys.foldl DMat.add acc).toArr
  | [], _, _, _, _ => rfl
  | Y :: Ys, acc, h1, h2, h => by
    rw [map_cons, foldlM_cons, Is.toArr_add acc Y (by rw [h1, (h Y (by simp)).1]) (by rw [h2, (h Y (by simp)).2])]
    exact foldlM_add n k Ys (acc.add Y) h1 h2 fun Z hZ => h Z (by simp [hZ])

theorem mat_add_assoc (A B C : DMat R) (h1 : A.rows = B.rows) (h2 : A.cols = B.cols) : (A.add B).add C = A.add (B.add C) := by
  refine DMat.ext rfl rfl fun i j hi hj => ?_
  have hi : i < A.rows := hi
  have hj : j < A.cols := hj
  rw [show ((A.add B).add C).e i j = (A.add B).e i j + C.e i j from of_e hi hj, show (A.add B).e i j = A.e i j + B.e i j from of_e hi hj,
    show (A.add (B.add C)).e i j = A.e i j + (B.add C).e i j from of_e hi hj,
    show (B.add C).e i j = B.e i j + C.e i j from of_e (h1 ▸ hi) (h2 ▸ hj), add_assoc]

theorem vstack2_T_mul (P Q X : DMat R) (h : P.cols = Q.cols) (off : ℕ) :
    (vstack2 P Q).transpose.mul (X.sub off (P.rows + Q.rows)) =
      (P.transpose.mul (X.sub off P.rows)).add (Q.transpose.mul (X.sub (off + P.rows) Q.rows)) := by
  refine DMat.ext rfl rfl fun i j hi hj => ?_
  have hi : i < P.cols := hi
  have hj : j < X.cols := hj
  rw [mul_e (A := (vstack2 P Q).transpose) (B := X.sub off (P.rows + Q.rows)) hi hj]
  refine Eq.trans ?_ (of_e (m := P.cols) (n := X.cols) hi hj).symm
  rw [mul_e (A := P.transpose) (B := X.sub off P.rows) hi hj, mul_e (A := Q.transpose) (B := X.sub (off + P.rows) Q.rows) (show i < Q.cols from h ▸ hi) hj]
  show ∑ k ∈ Finset.range (P.rows + Q.rows), _ = _
  rw [Finset.sum_range_add]
  congr 1
  · apply Finset.sum_congr rfl
    intro k hk
    have hk := Finset.mem_range.1 hk
    rw [transpose_e, transpose_e, sub_e (X := X) (m := P.rows + Q.rows) (by omega), sub_e (X := X) (m := P.rows) hk,
      show (vstack2 P Q).e k i = _ from of_e (m := P.rows + Q.rows) (n := P.cols) (by omega) hi, if_pos hk]
  · apply Finset.sum_congr rfl
    intro k hk
    have hk : k < Q.rows := Finset.mem_range.1 hk
    rw [transpose_e, transpose_e, sub_e (X := X) (m := P.rows + Q.rows) (by omega), sub_e (X := X) (m := Q.rows) hk,
      show (vstack2 P Q).e (P.rows + k) i = _ from of_e (m := P.rows + Q.rows) (n := P.cols) (by omega) hi, if_neg (by omega),
      Nat.add_sub_cancel_left, ← add_assoc]

theorem prods_sizes (X : DMat R) (r n : ℕ) : ∀ (L : List (DMat R)) (off : ℕ), (∀ A ∈ L, A.cols = n) →
    ∀ Y ∈ prods X r off L, Y.rows = n ∧ Y.cols = X.cols
  | [], _, _ => by simp [prods]
  | A :: L, off, h => by
    intro Y hY
    rcases mem_cons.1 hY with rfl | hY
    · exact ⟨h A (by simp), rfl⟩
    · exact prods_sizes X r n L _ (fun B hB => h B (by simp [hB])) Y hY

theorem vstack_sub_rows (L : List (DMat R)) {r : ℕ} (h : ∀ A ∈ L, A.rows = r) : (vstack L).rows = r * L.length := by
  rw [vstack_rows]
  induction L with
  | nil => simp
  | cons A L ih => rw [map_cons, sum_cons, ih fun B hB => h B (by simp [hB]), h A (by simp), length_cons]; ring

theorem foldl_prods (X : DMat R) {r n : ℕ} : ∀ (L : List (DMat R)) (A acc : DMat R) (off : ℕ), acc.rows = n → acc.cols = X.cols →
    (∀ B ∈ A :: L, B.rows = r ∧ B.cols = n) →
    (prods X r off (A :: L)).foldl DMat.add acc = acc.add ((vstack (A :: L)).transpose.mul (X.sub off (vstack (A :: L)).rows))
  | [], A, acc, off, _, _, h => by
    show acc.add (A.transpose.mul (X.sub off r)) = acc.add (A.transpose.mul (X.sub off A.rows))
    rw [(h A (by simp)).1]
  | B :: L, A, acc, off, h1, h2, h => by
    obtain ⟨a1, a2⟩ := h A (by simp)
    show (prods X r (off + r) (B :: L)).foldl DMat.add (acc.add (A.transpose.mul (X.sub off r))) = _
    rw [foldl_prods X L B (acc.add (A.transpose.mul (X.sub off r))) (off + r) h1 h2 fun C hC => h C (mem_cons_of_mem _ hC),
      mat_add_assoc _ _ _ (by rw [h1]; exact a2.symm) (by rw [h2]; rfl)]
    have e := vstack2_T_mul A (vstack (B :: L)) X (by rw [vstack_cols, a2]; exact (h B (by simp)).2.symm) off
    rw [show vstack (A :: B :: L) = vstack2 A (vstack (B :: L)) from rfl]
    refine Eq.trans ?_ (congrArg acc.add e.symm)
    rw [a1]

/-- `_rmatmat` of a concatenation on a matrix. -/
theorem concatRMM_eq {l : List (Act R)} {L : List (DMat R)} (h : IsL l (L.map DMat.transpose)) (hne : L ≠ []) {r n : ℕ}
    (hs : ∀ A ∈ L, A.rows = r ∧ A.cols = n) (X : DMat R) (hX : X.rows = r * L.length) :
    concatRMM l X.toArr = .ok ((vstack L).transpose.mul X).toArr := by
  have hl : l.length = L.length := by rw [h.length_eq, length_map]
  have h0 : L.length ≠ 0 := by simpa using hne
  unfold concatRMM split
  rw [hl, show X.toArr.shape.headD 0 = X.rows from rfl, hX, if_neg (by simp [h0]), Nat.mul_div_cancel _ (Nat.pos_of_ne_zero h0)]
  have e := pieces_eq X r L.length 0 (by rw [hX, Nat.mul_comm, Nat.zero_add])
  simp only [Nat.zero_add] at e
  rw [e]
  show (do
    let ys ← dotEach l ((pieces X r 0 L.length).map toArr)
    sumArr ys) = _
  rw [dotEach_eq X 0 h fun A hA => (hs A hA).1]
  show sumArr ((prods X r 0 L).map toArr) = _
  cases L with
  | nil => exact absurd rfl hne
  | cons A L =>
    show ((prods X r (0 + r) L).map toArr).foldlM add? (A.transpose.mul (X.sub 0 r)).toArr = _
    have hn : (A.transpose.mul (X.sub 0 r)).rows = n := (hs A (by simp)).2
    rw [foldlM_add n X.cols _ _ hn rfl (prods_sizes X r n L _ fun B hB => (hs B (by simp [hB])).2)]
    cases L with
    | nil =>
      show Except.ok (A.transpose.mul (X.sub 0 r)).toArr = Except.ok (A.transpose.mul X).toArr
      rw [show r = X.rows by rw [hX]; simp, sub_all]
    | cons B L =>
      obtain ⟨a1, a2⟩ := hs A (by simp)
      rw [foldl_prods X L B (A.transpose.mul (X.sub 0 r)) (0 + r) hn rfl fun C hC => hs C (mem_cons_of_mem _ hC)]
      have e := vstack2_T_mul A (vstack (B :: L)) X (by rw [vstack_cols, a2]; exact (hs B (by simp)).2.symm) 0
      rw [show vstack (A :: B :: L) = vstack2 A (vstack (B :: L)) from rfl]
      have e2 : X.sub 0 (A.rows + (vstack (B :: L)).rows) = X := by
        rw [show A.rows + (vstack (B :: L)).rows = X.rows by
          rw [hX, vstack_sub_rows (B :: L) fun C hC => (hs C (mem_cons_of_mem _ hC)).1, a1, length_cons (a := A)]; ring, sub_all]
      rw [e2] at e
      rw [e, a1]

end Act
end Verif
