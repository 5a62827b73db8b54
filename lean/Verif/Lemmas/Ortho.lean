import Verif.Spec.Solver
import Verif.Lemmas.MulVec
import Verif.Lemmas.DRho

/-! Orthonormal bases of direct sums, tensor products and reindexed spaces. -/
namespace Verif
open List
variable {R : Type} [CommRing R]

namespace DMat

/-- column `j` -/
def col (M : DMat R) (j : ℕ) : List R := (range M.rows).map fun i => M.e i j

@[simp] theorem length_col (M : DMat R) (j : ℕ) : (M.col j).length = M.rows := by simp [col]

theorem getD_col (M : DMat R) {i j : ℕ} (hi : i < M.rows) : (M.col j).getD i 0 = M.e i j := by
  rw [List.getD_eq_getElem _ _ (by simpa)]; simp [col]

theorem mulVec_col (A M : DMat R) (h : A.cols = M.rows) {j : ℕ} (hj : j < M.cols) : A.mulVec (M.col j) = (A.mul M).col j := by
  refine vec_ext (by simp) fun i hi => ?_
  have hi' : i < A.rows := by simpa using hi
  rw [getD_mulVec hi', getD_col _ (by simpa), mul_e hi' hj]
  exact Finset.sum_congr rfl fun k hk => by rw [getD_col _ (by rw [← h]; exact Finset.mem_range.1 hk)]

theorem col_ext {M N : DMat R} (hr : M.rows = N.rows) (hc : M.cols = N.cols) (h : ∀ j < M.cols, M.col j = N.col j) : M = N :=
  ext hr hc fun i j hi hj => by rw [← getD_col M hi, h j hj, getD_col N (by omega)]

theorem mul_eq_iff_col (A M N : DMat R) (h : A.cols = M.rows) (hr : A.rows = N.rows) (hc : M.cols = N.cols) :
    A.mul M = N ↔ ∀ j < M.cols, A.mulVec (M.col j) = N.col j := by
  constructor
  · rintro e j hj; rw [mulVec_col _ _ h hj, e]
  · intro e; exact col_ext hr hc fun j hj => by rw [← mulVec_col _ _ h (by simpa using hj), e j (by simpa using hj)]

theorem unflat_flat {m n : ℕ} {v : List R} (h : v.length = m * n) : (unflat m n v).flat = v := by
  refine vec_ext (by rw [length_flat, h]; rfl) fun i hi => ?_
  rw [length_flat] at hi
  obtain ⟨a, b, ha, hb, rfl⟩ := exists_mul_add (show i < m * n from hi)
  have := getD_flat (unflat m n v) (i := a) (j := b) ha hb
  rw [show (unflat m n v).cols = n from rfl] at this
  rw [this]; exact of_e ha hb

variable [StarRing R]

@[simp] theorem conjTranspose_rows (A : DMat R) : A.conjTranspose.rows = A.cols := rfl
@[simp] theorem conjTranspose_cols (A : DMat R) : A.conjTranspose.cols = A.rows := rfl

theorem conjTranspose_e (A : DMat R) (i j : ℕ) : A.conjTranspose.e i j = star (A.e j i) := by
  by_cases h : i < A.cols ∧ j < A.rows
  · exact of_e h.1 h.2
  · rw [A.conjTranspose.out _ _ h, A.out _ _ (fun h' => h ⟨h'.2, h'.1⟩), star_zero]

theorem conjTranspose_conjTranspose (A : DMat R) : A.conjTranspose.conjTranspose = A :=
  ext rfl rfl fun i j _ _ => by rw [conjTranspose_e, conjTranspose_e, star_star]

theorem conjTranspose_mul (A B : DMat R) (h : A.cols = B.rows) :
    (A.mul B).conjTranspose = B.conjTranspose.mul A.conjTranspose := by
  refine ext rfl rfl fun i j hi hj => ?_
  rw [conjTranspose_e, mul_e (A := A) (B := B) hj hi, mul_e (A := B.conjTranspose) (B := A.conjTranspose) hi hj, star_sum, conjTranspose_cols, h]
  exact Finset.sum_congr rfl fun k _ => by rw [star_mul', conjTranspose_e, conjTranspose_e, mul_comm]

theorem conjTranspose_kron (A B : DMat R) : (kron A B).conjTranspose = kron A.conjTranspose B.conjTranspose := by
  refine kron_ext (m := A.cols) (n := B.cols) (m' := A.rows) (n' := B.rows) rfl rfl rfl rfl fun i i' j j' hi hi' hj hj' => ?_
  have e := kron_e (A := A.conjTranspose) (B := B.conjTranspose) hi hj hi' hj'
  rw [conjTranspose_rows, conjTranspose_cols] at e
  rw [conjTranspose_e, kron_e (A := A) (B := B) hj hi hj' hi', e, conjTranspose_e, conjTranspose_e, star_mul']

theorem conjTranspose_bdiag2 (A B : DMat R) : (bdiag2 A B).conjTranspose = bdiag2 A.conjTranspose B.conjTranspose := by
  refine ext rfl rfl fun i j hi hj => ?_
  rw [conjTranspose_e]
  by_cases h1 : j < A.rows <;> by_cases h2 : i < A.cols
  · rw [bdiag2_e11 h1 h2, bdiag2_e11 (A := A.conjTranspose) h2 h1, conjTranspose_e]
  · rw [bdiag2_e12 h1 (by omega), bdiag2_e21 (A := A.conjTranspose) (by simp; omega) h1, star_zero]
  · rw [bdiag2_e21 (by omega) h2, bdiag2_e12 (A := A.conjTranspose) h2 (by simp; omega), star_zero]
  · rw [bdiag2_e22 (by omega) (by omega), bdiag2_e22 (A := A.conjTranspose) (by simp; omega) (by simp; omega), conjTranspose_e]
    rfl

theorem conjTranspose_pick (A : DMat R) (p q : List ℕ) : (A.pick p q).conjTranspose = A.conjTranspose.pick q p :=
  ext rfl rfl fun i j hi hj => by rw [conjTranspose_e, pick_e hj hi, pick_e hi hj, conjTranspose_e]

end DMat

section
variable {p : List ℕ} {n : ℕ}

theorem getD_argsort_iff (hp : p ~ range n) {i j : ℕ} (hi : i < n) (hj : j < n) :
    (argsort p).getD j 0 = i ↔ p.getD i 0 = j := by
  have hl := length_of_perm_range hp
  have ha : argsort p ~ range n := hl ▸ argsort_perm p
  have hla := length_of_perm_range ha
  constructor
  · rintro rfl
    rw [← getD_gather (by rwa [hla]), gather_argsort hp, getD_range hj]
  · rintro rfl
    rw [← getD_gather (by rwa [hl]), argsort_gather hp, getD_range hi]

theorem DMat.permMat_mul_argsort (hp : p ~ range n) : (permMat p : DMat R).mul (permMat (argsort p)) = DMat.one n := by
  have hl := length_of_perm_range hp
  have ha : argsort p ~ range n := hl ▸ argsort_perm p
  have hla := length_of_perm_range ha
  refine DMat.ext (by simp [hl, DMat.one]) (by simp [hla, DMat.one]) fun i j hi hj => ?_
  simp only [DMat.mul_rows, DMat.mul_cols, DMat.permMat_rows, DMat.permMat_cols, hl, hla] at hi hj
  have hlt : p.getD i 0 < n := lt_of_perm_range hp (getD_mem_of_lt (by rwa [hl]))
  rw [DMat.permMat_mul _ _ (by simp [hl, hla]) (fun x hx => by rw [hl]; exact lt_of_perm_range hp hx),
    DMat.pick_e (by rwa [hl]) (by simpa [hla]), getD_range (by simpa [hla]), DMat.one_e hi hj]
  rw [DMat.permMat, DMat.of_e (by rwa [hla]) (by rwa [hla])]
  congr 1
  rw [getD_argsort_iff hp hj hlt]
  refine propext ⟨fun h => ?_, fun h => by rw [h]⟩
  exact (getD_inj (nodup_of_perm_range hp) (by rwa [hl]) (by rwa [hl]) h).symm

theorem DMat.conjTranspose_permMat [StarRing R] (hp : p ~ range n) : (permMat (argsort p) : DMat R).conjTranspose = permMat p := by
  have hl := length_of_perm_range hp
  have ha : argsort p ~ range n := hl ▸ argsort_perm p
  have hla := length_of_perm_range ha
  refine DMat.ext (by simp [hl, hla]) (by simp [hl, hla]) fun i j hi hj => ?_
  simp only [DMat.conjTranspose_rows, DMat.conjTranspose_cols, DMat.permMat_rows, DMat.permMat_cols, hla] at hi hj
  rw [DMat.conjTranspose_e, DMat.permMat, DMat.permMat, DMat.of_e (by rwa [hla]) (by rwa [hla]), DMat.of_e (by rwa [hl]) (by rwa [hl])]
  by_cases h : p.getD i 0 = j
  · rw [if_pos h, if_pos ((getD_argsort_iff hp hi hj).2 h), star_one]
  · rw [if_neg h, if_neg (mt (getD_argsort_iff hp hi hj).1 h), star_zero]

end

open DMat
variable [StarRing R]

namespace OrthoBasis

/-- The projection onto the columns detects membership. -/
theorem proj {n : ℕ} {Q : DMat R} {F : List R → Prop} (h : OrthoBasis n Q F) {v : List R} (hv : v.length = n) :
    F v ↔ (Q.mul Q.conjTranspose).mulVec v = v := by
  rw [h.span v hv]
  constructor
  · rintro ⟨a, ha, rfl⟩
    rw [← mulVec_mul _ _ _ (by simp), mul_assoc' _ _ _ (by simp), h.orth, mul_one' _ rfl]
  · intro e
    exact ⟨Q.conjTranspose.mulVec v, by simp, by rw [← mulVec_mul _ _ _ (by simp), e]⟩

/-- Matrix form of membership: all columns. -/
theorem proj_cols {n : ℕ} {Q : DMat R} {F : List R → Prop} (h : OrthoBasis n Q F) {M : DMat R} (hM : M.rows = n) :
    (∀ j < M.cols, F (M.col j)) ↔ (Q.mul Q.conjTranspose).mul M = M := by
  rw [mul_eq_iff_col _ _ _ (by simp [h.rows, hM]) (by simp [h.rows, hM]) rfl]
  exact forall₂_congr fun j _ => h.proj (by simp [hM])

theorem congr {n : ℕ} {Q : DMat R} {F F' : List R → Prop} (h : OrthoBasis n Q F) (hF : ∀ v, v.length = n → (F' v ↔ F v)) :
    OrthoBasis n Q F' := ⟨h.rows, h.orth, fun v hv => by rw [hF v hv, h.span v hv]⟩

theorem bdiag2 {m n : ℕ} {P Q : DMat R} {F G H : List R → Prop} (hP : OrthoBasis m P F) (hQ : OrthoBasis n Q G)
    (hH : ∀ v w, v.length = m → w.length = n → (H (v ++ w) ↔ F v ∧ G w)) : OrthoBasis (m + n) (bdiag2 P Q) H where
  rows := by simp [DMat.bdiag2, hP.rows, hQ.rows]
  orth := by
    rw [conjTranspose_bdiag2, bdiag2_mul _ _ _ _ (by simp) (by simp), hP.orth, hQ.orth, bdiag2_one]; rfl
  span v hv := by
    have e : v = v.take m ++ v.drop m := (take_append_drop m v).symm
    have h1 : (v.take m).length = m := by simp [hv]
    have h2 : (v.drop m).length = n := by simp [hv]
    rw [e, hH _ _ h1 h2, hP.span _ h1, hQ.span _ h2]
    constructor
    · rintro ⟨⟨a, ha, ea⟩, b, hb, eb⟩
      refine ⟨a ++ b, by simp [DMat.bdiag2, ha, hb], ?_⟩
      rw [mulVec_bdiag2 _ _ _ _ ha, ea, eb]
    · rintro ⟨c, hc, ec⟩
      have hc' : c.length = P.cols + Q.cols := hc
      have hca : (c.take P.cols).length = P.cols := by simp [hc']
      rw [← take_append_drop P.cols c, mulVec_bdiag2 _ _ _ _ hca] at ec
      obtain ⟨e1, e2⟩ := append_inj ec (by rw [h1]; simp [hP.rows])
      exact ⟨⟨_, hca, e1⟩, c.drop P.cols, by simp [hc'], e2⟩

theorem kron {m n : ℕ} {P Q : DMat R} {F G H : List R → Prop} (hP : OrthoBasis m P F) (hQ : OrthoBasis n Q G)
    (hH : ∀ M : DMat R, M.rows = m → M.cols = n → (H M.flat ↔ (∀ j < n, F (M.col j)) ∧ ∀ i < m, G (M.transpose.col i))) :
    OrthoBasis (m * n) (DMat.kron P Q) H where
  rows := by simp [hP.rows, hQ.rows]
  orth := by
    rw [conjTranspose_kron, kron_mul _ _ _ _ (by simp) (by simp), hP.orth, hQ.orth, kron_one_one]; rfl
  span v hv := by
    obtain ⟨M, hM⟩ : ∃ M, M = unflat m n v := ⟨_, rfl⟩
    have hv' : v = M.flat := by rw [hM, unflat_flat hv]
    have hr : M.rows = m := by rw [hM]; rfl
    have hc : M.cols = n := by rw [hM]; rfl
    rw [hv', hH M hr hc]
    have h1 := hP.proj_cols hr
    have h2 := hQ.proj_cols (M := M.transpose) (by simpa)
    rw [hc] at h1
    rw [transpose_cols, hr] at h2
    rw [h1, h2]
    have Pr := hP.rows
    have Qr := hQ.rows
    constructor
    · rintro ⟨e1, e2⟩
      have e3 : (M.mul Q.conjTranspose.transpose).mul Q.transpose = M := by
        have := congrArg DMat.transpose e2
        rw [DMat.transpose_mul _ _ (by simp [Qr, hc]), DMat.transpose_mul _ _ (by simp), transpose_transpose] at this
        rw [mul_assoc' _ _ _ (by simp [hc, Qr])]; exact this
      refine ⟨((P.conjTranspose.mul M).mul Q.conjTranspose.transpose).flat, by simp [length_flat], ?_⟩
      rw [kron_mulVec_flat _ _ _ (by simp) (by simp)]
      congr 1
      rw [← mul_assoc' P _ _ (by simp), ← mul_assoc' P _ _ (by simp), e1]
      exact e3
    · rintro ⟨a, ha, ea⟩
      have ha' : a.length = P.cols * Q.cols := ha
      have hN := unflat_flat ha'
      rw [← hN, kron_mulVec_flat Q P (unflat P.cols Q.cols a) rfl rfl] at ea
      have eM : (P.mul (unflat P.cols Q.cols a)).mul Q.transpose = M :=
        flat_inj (by simp [Pr, hr]) (by simp [Qr, hc]) ea
      have N1 : (unflat P.cols Q.cols a).rows = P.cols := rfl
      have N2 : (unflat P.cols Q.cols a).cols = Q.cols := rfl
      constructor
      · have e : (P.mul (unflat P.cols Q.cols a)).mul Q.transpose = P.mul ((unflat P.cols Q.cols a).mul Q.transpose) :=
          mul_assoc' _ _ _ N1.symm
        rw [← eM, e, ← mul_assoc' _ P _ (by simp), mul_assoc' P _ P (by simp), hP.orth, mul_one' _ rfl]
      · rw [← eM, DMat.transpose_mul _ _ (by simp [N2]), transpose_transpose, ← mul_assoc' _ Q _ (by simp), mul_assoc' Q _ Q (by simp),
          hQ.orth, mul_one' _ rfl]

/-- Reindexing: `v` satisfies `H` when `v[p]` satisfies `F`. -/
theorem perm {n : ℕ} {Q : DMat R} {F H : List R → Prop} (hQ : OrthoBasis n Q F) {p : List ℕ} (hp : p ~ range n)
    (hH : ∀ v, v.length = n → (H v ↔ F ((permMat p).mulVec v))) :
    OrthoBasis n ((permMat (argsort p)).mul Q) H := by
  have hl := length_of_perm_range hp
  have ha : argsort p ~ range n := hl ▸ argsort_perm p
  have hla := length_of_perm_range ha
  have hb : ∀ x ∈ argsort p, x < (argsort p).length := fun x hx => by rw [hla]; exact lt_of_perm_range ha hx
  have i1 : (permMat p : DMat R).mul (permMat (argsort p)) = DMat.one n := permMat_mul_argsort hp
  have i2 : (permMat (argsort p) : DMat R).conjTranspose = permMat p := conjTranspose_permMat hp
  have Qr := hQ.rows
  refine ⟨by simp [hla], ?_, fun v hv => ?_⟩
  · rw [conjTranspose_mul _ _ (by simp [hla, Qr]), i2, mul_assoc' _ _ _ (by simp [hl, Qr]), ← mul_assoc' (permMat p) _ _ (by simp [hl, hla]),
      i1, one_mul' _ Qr, hQ.orth]
    rfl
  · have i3 : (permMat (argsort p) : DMat R).mul (permMat p) = DMat.one n :=
      DMat.mul_eq_one_comm ⟨by simp [hl], by simp [hl]⟩ ⟨by simp [hla], by simp [hla]⟩ i1
    rw [hH v hv, hQ.span _ (by simp [hl])]
    refine exists_congr fun a => and_congr_right fun hac => ?_
    constructor
    · intro e
      rw [mulVec_mul _ _ _ (by simp [hla, Qr]), e, ← mulVec_mul _ _ _ (by simp [hl, hla]), i3, mulVec_one _ hv]
    · intro e
      rw [← e, mulVec_mul _ _ _ (by simp [hla, Qr]), ← mulVec_mul _ _ _ (by simp [hl, hla]), i1, mulVec_one _ (by simp [Qr])]

end OrthoBasis
end Verif
