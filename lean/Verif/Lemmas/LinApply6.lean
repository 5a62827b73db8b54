import Verif.Lemmas.LinApply5
import Verif.Lemmas.Projector

namespace Verif
open List DMat

namespace Op
variable {R : Type} [CommRing R] [StarRing R]

theorem conjMat_conjTranspose (A : DMat R) : Act.conjMat A.conjTranspose = A.transpose :=
  DMat.ext rfl rfl fun i j _ _ => by rw [Act.conjMat_e, conjTranspose_e, transpose_e, star_star]

theorem conjMat_eq (A : DMat R) : Act.conjMat A = A.transpose.conjTranspose :=
  DMat.ext rfl rfl fun i j _ _ => by rw [Act.conjMat_e, conjTranspose_e, transpose_e]

theorem conjTranspose_one (n : ℕ) : (one n : DMat R).conjTranspose = one n := by
  refine DMat.ext rfl rfl fun i j hi hj => ?_
  rw [conjTranspose_e, one_e (n := n) hj hi, one_e (n := n) hi hj]
  by_cases h : i = j
  · rw [if_pos h, if_pos h.symm, star_one]
  · rw [if_neg h, if_neg (Ne.symm h), star_zero]

theorem conjTranspose_kronL (L : List (DMat R)) : (kronL L).conjTranspose = kronL (L.map conjTranspose) := by
  induction L with
  | nil => exact conjTranspose_one 1
  | cons A L ih => rw [map_cons, kronL, kronL, conjTranspose_kron, ih]

theorem conjTranspose_add (A B : DMat R) (hr : A.rows = B.rows) (hc : A.cols = B.cols) :
    (A.add B).conjTranspose = A.conjTranspose.add B.conjTranspose := by
  refine DMat.ext rfl rfl fun i j hi hj => ?_
  have hi : i < A.cols := hi
  have hj : j < A.rows := hj
  rw [conjTranspose_e, show (A.add B).e j i = A.e j i + B.e j i from of_e hj hi,
    show (A.conjTranspose.add B.conjTranspose).e i j = A.conjTranspose.e i j + B.conjTranspose.e i j from of_e hi hj,
    conjTranspose_e, conjTranspose_e, star_add]

theorem conjTranspose_zero (m n : ℕ) : (DMat.zero m n : DMat R).conjTranspose = DMat.zero n m :=
  DMat.ext rfl rfl fun i j _ _ => by rw [conjTranspose_e, zero_e, zero_e, star_zero]

theorem conjTranspose_kronsumL (L : List (DMat R)) (hs : ∀ A ∈ L, A.rows = A.cols) :
    (kronsumL L).conjTranspose = kronsumL (L.map conjTranspose) := by
  induction L with
  | nil => exact conjTranspose_zero 1 1
  | cons A L ih =>
    have hA := hs A (by simp)
    have hL := Act.kronsumL_sq L fun B hB => hs B (by simp [hB])
    rw [map_cons, kronsumL, kronsumL, DMat.kronsum, DMat.kronsum, ← ih fun B hB => hs B (by simp [hB])]
    rw [conjTranspose_add _ _ (by simp [hL.1]) (by simp [hL.2, hA, hL.1]), conjTranspose_kron, conjTranspose_kron, conjTranspose_one,
      conjTranspose_one, conjTranspose_rows, conjTranspose_rows, ← hA, hL.1, hL.2]

theorem conjTranspose_smul (c : R) (A : DMat R) : (DMat.smul c A).conjTranspose = DMat.smul (star c) A.conjTranspose := by
  refine DMat.ext rfl rfl fun i j hi hj => ?_
  have hi : i < A.cols := hi
  have hj : j < A.rows := hj
  rw [conjTranspose_e, show (DMat.smul c A).e j i = c * A.e j i from of_e hj hi,
    show (DMat.smul (star c) A.conjTranspose).e i j = star c * A.conjTranspose.e i j from of_e hi hj, conjTranspose_e, star_mul']

theorem conjTranspose_pow (A : DMat R) (h : A.rows = A.cols) : ∀ n, (A.pow n).conjTranspose = A.conjTranspose.pow n
  | 0 => by
    show (one A.rows : DMat R).conjTranspose = one A.cols
    rw [conjTranspose_one, h]
  | n + 1 => by
    rw [Act.pow_succ_right A h, conjTranspose_mul _ _ (by rw [Act.pow_cols A h, h]), conjTranspose_pow A h n]
    rfl

theorem denL_length (Ms : List (Op R)) : (denL Ms).length = Ms.length := by
  induction Ms with
  | nil => rfl
  | cons M Ms ih => simp [denL, ih]

/-- The matrices of a list with multiplicities, not yet repeated. -/
def denP : List (Op R × ℕ) → List (DMat R × ℕ)
  | [] => []
  | (M, c) :: Ms => (M.den, c) :: denP Ms

theorem denM_eq (Ms : List (Op R × ℕ)) : denM Ms = Act.expand (denP Ms) := by
  induction Ms with
  | nil => rfl
  | cons M Ms ih => obtain ⟨M, c⟩ := M; simp only [denM, denP, ih, Act.expand, flatMap_cons]

theorem fwdM_ne {Ms : List (Op R × ℕ)} (h : Ms ≠ []) : fwdM Ms ≠ [] := by
  cases Ms with
  | nil => exact absurd rfl h
  | cons M Ms => obtain ⟨M, c⟩ := M; simp [fwdM]

theorem denL_ne {Ms : List (Op R)} (h : Ms ≠ []) : denL Ms ≠ [] := by
  cases Ms with
  | nil => exact absurd rfl h
  | cons M Ms => simp [denL]

theorem denP_sq {Ms : List (Op R × ℕ)} (h : ∀ M ∈ Ms, M.1.den.rows = M.1.den.cols) : ∀ A ∈ denP Ms, A.1.rows = A.1.cols := by
  induction Ms with
  | nil => simp [denP]
  | cons M Ms ih =>
    obtain ⟨M, c⟩ := M
    intro A hA
    rcases mem_cons.1 hA with rfl | hA
    · exact h (M, c) (by simp)
    · exact ih (fun M hM => h M (by simp [hM])) A hA

theorem map_transpose_real {L : List (DMat R)} (h : ∀ A ∈ L, A.conjTranspose = A.transpose) : L.map DMat.transpose = L.map conjTranspose :=
  map_congr_left fun A hA => (h A hA).symm

mutual
/-- Each object's methods compute with the matrix it stands for. -/
theorem fwd_is : ∀ M : Op R, M.WF → M.fwd.Is M.den
  | .arr A, _ => by rw [fwd, den]; exact Act.ofMat_is A
  | .lazy A, _ => by rw [fwd, den]; exact Act.ofMat_is A
  | .eye n, _ => by rw [fwd, den]; exact Act.eye_is n
  | .kron Ms, h => by
    rw [WF] at h
    rw [fwd, den]
    exact Act.kron_is (fwdL_is Ms h.1) h.2.2
  | .kronsum Ms, h => by
    rw [WF] at h
    rw [fwd, den]
    exact Act.kronsum_is (fwdL_is Ms h.1) h.2.2
  | .concat Ms, h => by
    rw [WF] at h
    rw [fwd, den]
    exact Act.concat_is (fwdL_is Ms h.1) (denL_ne h.2.1) fun A hA B hB => (h.2.2 A hA B hB).2
  | .dsum Ms, h => by
    rw [WF] at h
    rw [fwd, den, denM_eq]
    exact Act.dsum_is (fwdM_is Ms h.1) (fwdM_ne fun e => h.2.1 (by rw [e, denM])) (denP_sq h.2.2)
  | .perm p, h => by
    rw [WF] at h
    rw [fwd, den]; exact Act.perm_is h
  | .shift n k, _ => by rw [fwd, den]; exact Act.shift_is n k
  | .rot90 n k, h => by
    rw [WF] at h
    rw [fwd, den]; exact Act.rot90_is n h k
  | .jvp D, _ => by rw [fwd, den]; exact Act.ofMat_is D
  | .closure Ms pre post m n, h => by
    rw [WF, denM_eq] at h
    rw [fwd, den, denM_eq]
    exact Act.closure_is (fwdM_is Ms h.1) (fwdM_ne h.2.1) h.2.2.1 h.2.2.2.1 h.2.2.2.2.1 h.2.2.2.2.2
  | .noMatvec _ _, h => by rw [WF] at h; exact h.elim
  | .selfRef _ _, h => by rw [WF] at h; exact h.elim
  | .add A B, h => by
    rw [WF] at h
    rw [fwd, den]
    exact Act.add_is (fwd_is A h.1) (fwd_is B h.2.1) h.2.2.1 h.2.2.2.1
  | .mul A B, h => by
    rw [WF] at h
    rw [fwd, den]
    exact Act.mul_is (fwd_is A h.1) (fwd_is B h.2.1) h.2.2.1
  | .smul c A, h => by
    rw [WF] at h
    rw [fwd, den]
    exact Act.smul_is c (fwd_is A h.1)
  | .pow A n, h => by
    rw [WF] at h
    rw [fwd, den]
    exact Act.pow_is (fwd_is A h.1) h.2.1 n
  | .adj A, h => by
    rw [WF] at h
    rw [fwd, den]
    exact bwd_is A h.1 h.2.1
  | .tr A, h => by
    rw [WF] at h
    rw [fwd, den, ← conjMat_conjTranspose]
    exact Act.conj_is (bwd_is A h.1 h.2.1)
/-- The adjoint side of each object that has one computes with the conjugate transpose. -/
theorem bwd_is : ∀ M : Op R, M.WF → M.Rev → M.bwd.Is M.den.conjTranspose
  | .arr A, _, h => by rw [Rev] at h; rw [bwd, den, h]; exact Act.ofMat_is A.transpose
  | .lazy A, _, h => by rw [Rev] at h; rw [bwd, den, h]; exact Act.ofMat_is A.transpose
  | .eye n, _, _ => by rw [bwd, den, conjTranspose_one]; exact Act.viaH_is (Act.eye_is n)
  | .kron Ms, h, h' => by
    rw [WF] at h
    rw [Rev] at h'
    rw [bwd, den, conjTranspose_kronL, ← map_transpose_real fun A hA => (h'.2 A hA).2]
    refine Act.viaH_is (Act.kron_is (tL_is Ms h.1 h'.1) fun A hA => ?_)
    obtain ⟨B, hB, rfl⟩ := mem_map.1 hA
    exact (h'.2 B hB).1
  | .kronsum Ms, h, h' => by
    rw [WF] at h
    rw [Rev] at h'
    rw [bwd, den, conjTranspose_kronsumL _ fun A hA => (h.2.2 A hA).2, ← map_transpose_real h'.2]
    refine Act.viaH_is (Act.kronsum_is (tL_is Ms h.1 h'.1) fun A hA => ?_)
    obtain ⟨B, hB, rfl⟩ := mem_map.1 hA
    obtain ⟨h1, h2⟩ := h.2.2 B hB
    exact ⟨by rw [transpose_cols, h2]; exact h1, h2.symm⟩
  | .concat _, _, h => by rw [Rev] at h; exact h.elim
  | .dsum _, _, h => by rw [Rev] at h; exact h.elim
  | .perm p, h, _ => by
    rw [WF] at h
    rw [bwd, den, ← DMat.conjTranspose_permMat h, conjTranspose_conjTranspose]
    exact Act.viaH_is (Act.perm_is (by rw [(argsort_perm p).length_eq, length_range]; exact argsort_perm p))
  | .shift n k, _, _ => by
    have : (shiftMat n (k % n).toNat : DMat R).conjTranspose = (shiftMat n (k % n).toNat).transpose := by
      refine DMat.IsReal.transpose_eq (DMat.real_of fun i j => ?_)
      split <;> simp
    rw [bwd, den, this, Act.shiftMat_transpose]
    exact Act.viaH_is (Act.shift_is n (-k))
  | .rot90 _ _, _, h => by rw [Rev] at h; exact h.elim
  | .jvp _, _, h => by rw [Rev] at h; exact h.elim
  | .closure _ _ _ _ _, _, h => by rw [Rev] at h; exact h.elim
  | .noMatvec _ _, _, h => by rw [Rev] at h; exact h.elim
  | .selfRef _ _, _, h => by rw [Rev] at h; exact h.elim
  | .add A B, h, h' => by
    rw [WF] at h
    rw [Rev] at h'
    rw [bwd, den, conjTranspose_add _ _ h.2.2.1 h.2.2.2.1]
    exact Act.add_is (bwd_is A h.1 h'.1) (bwd_is B h.2.1 h'.2) h.2.2.2.1 h.2.2.1
  | .mul A B, h, h' => by
    rw [WF] at h
    rw [Rev] at h'
    rw [bwd, den, conjTranspose_mul _ _ h.2.2.1]
    exact Act.mul_is (bwd_is B h.2.1 h'.2) (bwd_is A h.1 h'.1) h.2.2.1.symm
  | .smul c A, h, h' => by
    rw [WF] at h
    rw [Rev] at h'
    rw [bwd, den, conjTranspose_smul]
    exact Act.smul_is (star c) (bwd_is A h.1 h')
  | .pow A n, h, h' => by
    rw [WF] at h
    rw [Rev] at h'
    rw [bwd, den, conjTranspose_pow _ h.2.1]
    exact Act.pow_is (bwd_is A h.1 h') h.2.1.symm n
  | .adj A, h, _ => by
    rw [WF] at h
    rw [bwd, den, conjTranspose_conjTranspose]
    exact fwd_is A h.1
  | .tr A, h, _ => by
    rw [WF] at h
    rw [bwd, den, ← conjMat_eq]
    exact Act.conj_is (fwd_is A h.1)
theorem fwdL_is : ∀ Ms : List (Op R), WFL Ms → Act.IsL (fwdL Ms) (denL Ms)
  | [], _ => by rw [fwdL, denL]; exact .nil
  | M :: Ms, h => by
    rw [WFL] at h
    rw [fwdL, denL]
    exact .cons (fwd_is M h.1) (fwdL_is Ms h.2)
theorem tL_is : ∀ Ms : List (Op R), WFL Ms → RevL Ms → Act.IsL (tL Ms) ((denL Ms).map DMat.transpose)
  | [], _, _ => by rw [tL, denL]; exact .nil
  | M :: Ms, h, h' => by
    rw [WFL] at h
    rw [RevL] at h'
    rw [tL, denL]
    refine .cons ?_ (tL_is Ms h.2 h'.2)
    have hb := bwd_is M h.1 h'.1
    have := Act.conj_is hb
    rw [conjMat_conjTranspose] at this
    cases M <;> first | exact this | (rw [den]; exact Act.ofMat_is _)
theorem fwdM_is : ∀ Ms : List (Op R × ℕ), WFM Ms → Act.IsM (fwdM Ms) (denP Ms)
  | [], _ => by rw [fwdM, denP]; exact .nil
  | (M, c) :: Ms, h => by
    rw [WFM] at h
    rw [fwdM, denP]
    exact .cons ⟨fwd_is M h.1, rfl⟩ (fwdM_is Ms h.2)
end

end Op
end Verif
