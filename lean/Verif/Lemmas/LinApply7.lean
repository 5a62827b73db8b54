import Verif.Lemmas.LinApply6
import Verif.Lemmas.DRho
import Verif.Lemmas.Fixed

namespace Verif
open List DMat

namespace Op
variable {R : Type} [CommRing R] [StarRing R]

omit [StarRing R] in
theorem ofArr_toArr (A : DMat R) : DMat.ofArr A.toArr = .ok A := by
  show Except.ok (DMat.of A.rows A.cols fun i j => A.toArr.get [i, j]) = _
  congr 1
  exact DMat.ext rfl rfl fun i j hi hj => (of_e (R := R) (m := A.rows) (n := A.cols) (f := fun i j => A.toArr.get [i, j]) hi hj).trans (toArr_get A hi hj)

omit [StarRing R] in
theorem defaultDense_eq {a : Act R} {A : DMat R} (h : a.Is A) : defaultDense a = .ok A := by
  unfold defaultDense
  rw [h.cols, h.dot (one A.cols) rfl]
  show DMat.ofArr (A.mul (one A.cols)).toArr = _
  rw [mul_one' A rfl, ofArr_toArr]

omit [StarRing R] in
theorem foldl_kron (L : List (DMat R)) : ∀ A, L.foldl DMat.kron A = DMat.kron A (kronL L) := by
  induction L with
  | nil => intro A; exact (kron_one A).symm
  | cons B L ih => intro A; rw [foldl_cons, ih, kronL, kron_assoc]

omit [StarRing R] in
theorem eps_inj {A B : DMat R} (h : A.eps = B.eps) : A = B := by
  have hr : A.rows = B.rows := congrArg (fun M : DMat (DualNumber R) => M.rows) h
  have hc : A.cols = B.cols := congrArg (fun M : DMat (DualNumber R) => M.cols) h
  refine DMat.ext hr hc fun i j hi hj => ?_
  have := congrArg (fun M => TrivSqZeroExt.snd (DMat.e M i j)) h
  simpa only [eps_snd] using this

omit [StarRing R] in
theorem kronsum2_eq {A B : DMat R} (hA : A.rows = A.cols) (hB : B.rows = B.cols) : kronsum2 A B = DMat.kronsum A B := by
  rw [kronsum2, DMat.kronsum, hA, hB]

omit [StarRing R] in
theorem foldl_kronsum (L : List (DMat R)) (hL : ∀ B ∈ L, B.rows = B.cols) : ∀ A : DMat R, A.rows = A.cols →
    L.foldl kronsum2 A = DMat.kronsum A (kronsumL L) := by
  induction L with
  | nil =>
    intro A hA
    show A = DMat.kronsum A (DMat.zero 1 1)
    rw [kronsum_zero_right (n := 1) ⟨rfl, hA.symm⟩, kron_one]
  | cons B L ih =>
    intro A hA
    have hB := hL B (by simp)
    have hL' : ∀ B ∈ L, B.rows = B.cols := fun C hC => hL C (by simp [hC])
    have sA : A.IsSq A.rows := ⟨rfl, hA.symm⟩
    have sB : B.IsSq B.rows := ⟨rfl, hB.symm⟩
    have sL := Act.kronsumL_sq L hL'
    have sAB : (DMat.kronsum A B).IsSq (A.rows * B.rows) := kronsum_isSq sA sB
    rw [foldl_cons, kronsum2_eq hA hB, ih hL' _ (sAB.1.trans sAB.2.symm), kronsumL]
    apply eps_inj
    rw [eps_kron sAB sL, eps_kron sA sB, eps_kron sA (kronsum_isSq sB sL), eps_kron sB sL, kron_assoc]

mutual
/-- `to_dense()` returns the matrix an object stands for. -/
theorem toDense_eq : ∀ M : Op R, M.WF → M.toDense = .ok M.den
  | .arr A, _ => by rw [toDense, den]
  | .lazy A, _ => by rw [toDense, den]
  | .eye n, h => by
    have := fwd_is (.eye n : Op R) h
    rw [fwd] at this
    rw [toDense]; exact defaultDense_eq this
  | .kron Ms, h => by
    rw [WF] at h
    rw [toDense, toDenseL_eq Ms h.1, den]
    show reduce DMat.kron (denL Ms) = _
    cases Ms with
    | nil => exact absurd h.2.1 (by simp)
    | cons M Ms =>
      rw [denL]
      show Except.ok (foldl DMat.kron M.den (denL Ms)) = _
      rw [foldl_kron]; rfl
  | .kronsum Ms, h => by
    rw [WF] at h
    rw [toDense, toDenseL_eq Ms h.1, den]
    show reduce kronsum2 (denL Ms) = _
    have hs := h.2.2
    cases Ms with
    | nil => exact absurd h.2.1 (by simp)
    | cons M Ms =>
      rw [denL] at hs ⊢
      show Except.ok (foldl kronsum2 M.den (denL Ms)) = _
      rw [foldl_kronsum _ (fun B hB => (hs B (by simp [hB])).2) _ (hs _ (by simp)).2]; rfl
  | .concat Ms, h => by
    rw [WF] at h
    rw [toDense, toDenseL_eq Ms h.1, den]
    show vstack? (denL Ms) = _
    have hs := h.2.2
    cases Ms with
    | nil => exact absurd rfl h.2.1
    | cons M Ms =>
      rw [denL] at hs ⊢
      show (if ∀ B ∈ denL Ms, B.cols = M.den.cols then Except.ok (DMat.vstack (M.den :: denL Ms)) else _) = _
      rw [if_pos fun B hB => (hs B (by simp [hB]) M.den (by simp)).2]
  | .dsum Ms, h => by
    rw [WF] at h
    rw [toDense, toDenseM_eq Ms h.1, den]
    show Except.ok (blockDiag (denM Ms)) = _
    generalize denM Ms = L at h
    cases L with
    | nil => exact absurd rfl h.2.1
    | cons A L => rfl
  | .perm p, h => by
    have := fwd_is (.perm p : Op R) h
    rw [fwd] at this
    rw [toDense]; exact defaultDense_eq this
  | .shift n k, h => by
    have := fwd_is (.shift n k : Op R) h
    rw [fwd] at this
    rw [toDense]; exact defaultDense_eq this
  | .rot90 n k, h => by
    have := fwd_is (.rot90 n k : Op R) h
    rw [fwd] at this
    rw [toDense]; exact defaultDense_eq this
  | .jvp D, h => by
    have := fwd_is (.jvp D : Op R) h
    rw [fwd] at this
    rw [toDense]; exact defaultDense_eq this
  | .closure Ms pre post m n, h => by
    have := fwd_is (.closure Ms pre post m n : Op R) h
    rw [fwd] at this
    rw [toDense]; exact defaultDense_eq this
  | .noMatvec _ _, h => by rw [WF] at h; exact h.elim
  | .selfRef _ _, h => by rw [WF] at h; exact h.elim
  | .add A B, h => by
    have := fwd_is (.add A B : Op R) h
    rw [fwd] at this
    rw [toDense]; exact defaultDense_eq this
  | .mul A B, h => by
    rw [WF] at h
    rw [toDense, toDense_eq A h.1, toDense_eq B h.2.1, den]
    show (if A.den.cols = B.den.rows then Except.ok (A.den.mul B.den) else _) = _
    rw [if_pos h.2.2.1]
  | .smul c A, h => by
    rw [WF] at h
    rw [toDense, toDense_eq A h.1, den]; rfl
  | .pow A n, h => by
    have := fwd_is (.pow A n : Op R) h
    rw [fwd] at this
    rw [toDense]; exact defaultDense_eq this
  | .adj A, h => by
    have := fwd_is (.adj A : Op R) h
    rw [fwd] at this
    rw [toDense]; exact defaultDense_eq this
  | .tr A, h => by
    have := fwd_is (.tr A : Op R) h
    rw [fwd] at this
    rw [toDense]; exact defaultDense_eq this
theorem toDenseL_eq : ∀ Ms : List (Op R), WFL Ms → toDenseL Ms = .ok (denL Ms)
  | [], _ => by rw [toDenseL, denL]
  | M :: Ms, h => by
    rw [WFL] at h
    rw [toDenseL, toDense_eq M h.1, toDenseL_eq Ms h.2, denL]; rfl
theorem toDenseM_eq : ∀ Ms : List (Op R × ℕ), WFM Ms → toDenseM Ms = .ok (denM Ms)
  | [], _ => by rw [toDenseM, denM]
  | (M, c) :: Ms, h => by
    rw [WFM] at h
    rw [toDenseM, toDense_eq M h.1, toDenseM_eq Ms h.2, denM]
    by_cases hc : c = 0
    · subst hc; rfl
    · rw [if_neg hc]; rfl
end

theorem shape_eq {M : Op R} (h : M.WF) : M.shape = (M.den.rows, M.den.cols) := by
  rw [shape, (fwd_is M h).rows, (fwd_is M h).cols]

/-! ### `T` and `H` -/

theorem tr_ok {M : Op R} (h : M.WF) (h' : M.Rev) (ha : M.asArr = none) : M.tr.WF ∧ M.tr.den = M.den.transpose :=
  ⟨by rw [WF]; exact ⟨h, h', ha⟩, by rw [den]⟩

theorem T_ok {M : Op R} (h : M.WF) (h' : M.Rev) : M.T.WF ∧ M.T.den = M.den.transpose := by
  cases M with
  | arr A => exact ⟨by rw [T, WF]; trivial, by rw [T, den, den]⟩
  | _ => exact tr_ok h h' rfl

theorem WFL_iff (Ms : List (Op R)) : WFL Ms ↔ ∀ M ∈ Ms, M.WF := by
  induction Ms with
  | nil => simp [WFL]
  | cons M Ms ih => simp [WFL, ih]

theorem RevL_iff (Ms : List (Op R)) : RevL Ms ↔ ∀ M ∈ Ms, M.Rev := by
  induction Ms with
  | nil => simp [RevL]
  | cons M Ms ih => simp [RevL, ih]

theorem denL_eq_map (Ms : List (Op R)) : denL Ms = Ms.map den := by
  induction Ms with
  | nil => rfl
  | cons M Ms ih => simp [denL, ih]

theorem mkKron_two {Ms : List (Op R)} (h : 2 ≤ Ms.length) : mkKron Ms = .ok (.kron Ms) := by
  match Ms, h with
  | A :: B :: Ms, _ => cases A <;> rfl

theorem mkKronsum_two {Ms : List (Op R)} (h : 2 ≤ Ms.length) : mkKronsum Ms = .ok (.kronsum Ms) := by
  match Ms, h with
  | A :: B :: Ms, _ => cases A <;> rfl

theorem mapT_den {Ms : List (Op R)} (h : WFL Ms) (h' : RevL Ms) : denL (Ms.map T) = (denL Ms).map DMat.transpose ∧ WFL (Ms.map T) := by
  rw [WFL_iff] at h ⊢
  rw [RevL_iff] at h'
  constructor
  · rw [denL_eq_map, denL_eq_map, map_map, map_map]
    exact map_congr_left fun M hM => (T_ok (h M hM) (h' M hM)).2
  · intro N hN
    obtain ⟨M, hM, rfl⟩ := mem_map.1 hN
    exact (T_ok (h M hM) (h' M hM)).1

/-- `op.H` is an operator for the conjugate transpose. -/
theorem H_ok : ∀ M : Op R, M.WF → M.Rev → M.asArr = none → ∃ N, M.H = .ok N ∧ N.WF ∧ N.asArr = none ∧ N.den = M.den.conjTranspose
  | .arr A, _, _, h => by simp [asArr] at h
  | .lazy A, h, h', _ => ⟨.adj (.lazy A), rfl, by rw [WF]; exact ⟨h, h', rfl⟩, rfl, by simp only [den]⟩
  | .eye n, _, _, _ => ⟨.eye n, rfl, by rw [WF]; trivial, rfl, by rw [den, conjTranspose_one]⟩
  | .kron Ms, h, h', _ => by
    have hb := h; rw [WF] at hb
    have hb' := h'; rw [Rev] at hb'
    obtain ⟨e, w⟩ := mapT_den hb.1 hb'.1
    refine ⟨.kron (Ms.map T), by rw [H, mkKron_two (by simpa using hb.2.1)], ?_, rfl, ?_⟩
    · rw [WF, e]
      refine ⟨w, by simpa using hb.2.1, fun A hA => ?_⟩
      obtain ⟨B, hB, rfl⟩ := mem_map.1 hA
      exact (hb'.2 B hB).1
    · rw [den, den, e, conjTranspose_kronL, map_transpose_real fun A hA => (hb'.2 A hA).2]
  | .kronsum Ms, h, h', _ => by
    have hb := h; rw [WF] at hb
    have hb' := h'; rw [Rev] at hb'
    obtain ⟨e, w⟩ := mapT_den hb.1 hb'.1
    refine ⟨.kronsum (Ms.map T), by rw [H, mkKronsum_two (by simpa using hb.2.1)], ?_, rfl, ?_⟩
    · rw [WF, e]
      refine ⟨w, by simpa using hb.2.1, fun A hA => ?_⟩
      obtain ⟨B, hB, rfl⟩ := mem_map.1 hA
      obtain ⟨h1, h2⟩ := hb.2.2 B hB
      exact ⟨by rw [transpose_cols, h2]; exact h1, h2.symm⟩
    · rw [den, den, e, conjTranspose_kronsumL _ fun A hA => (hb.2.2 A hA).2, map_transpose_real hb'.2]
  | .concat _, _, h, _ => by rw [Rev] at h; exact h.elim
  | .dsum _, _, h, _ => by rw [Rev] at h; exact h.elim
  | .perm p, h, _, _ => by
    rw [WF] at h
    refine ⟨.perm (argsort p), rfl, by rw [WF, (argsort_perm p).length_eq, length_range]; exact argsort_perm p, rfl, ?_⟩
    rw [den, den, ← DMat.conjTranspose_permMat h, conjTranspose_conjTranspose]
  | .shift n k, _, _, _ => by
    have : (shiftMat n (k % n).toNat : DMat R).conjTranspose = (shiftMat n (k % n).toNat).transpose := by
      refine DMat.IsReal.transpose_eq (DMat.real_of fun i j => ?_)
      split <;> simp
    exact ⟨.shift n (-k), rfl, by rw [WF]; trivial, rfl, by rw [den, den, this, Act.shiftMat_transpose]⟩
  | .rot90 _ _, _, h, _ => by rw [Rev] at h; exact h.elim
  | .jvp _, _, h, _ => by rw [Rev] at h; exact h.elim
  | .closure _ _ _ _ _, _, h, _ => by rw [Rev] at h; exact h.elim
  | .noMatvec _ _, _, h, _ => by rw [Rev] at h; exact h.elim
  | .selfRef _ _, _, h, _ => by rw [Rev] at h; exact h.elim
  | .add A B, h, h', _ => by
    rw [WF] at h
    rw [Rev] at h'
    obtain ⟨N, e, w, a, d⟩ := H_ok A h.1 h'.1 h.2.2.2.2.1
    obtain ⟨N', e', w', a', d'⟩ := H_ok B h.2.1 h'.2 h.2.2.2.2.2
    have hr : N.den.rows = N'.den.rows := by rw [d, d']; exact h.2.2.2.1
    have hc : N.den.cols = N'.den.cols := by rw [d, d']; exact h.2.2.1
    refine ⟨.add N N', ?_, by rw [WF]; exact ⟨w, w', hr, hc, a, a'⟩, rfl, by rw [den, den, d, d', conjTranspose_add _ _ h.2.2.1 h.2.2.2.1]⟩
    rw [H, e, e']
    show mkAdd N N' = _
    rw [mkAdd, a, a', shape_eq w, shape_eq w', hr, hc, if_neg (by simp), if_pos rfl]
  | .mul A B, h, h', _ => by
    rw [WF] at h
    rw [Rev] at h'
    obtain ⟨N, e, w, a, d⟩ := H_ok A h.1 h'.1 h.2.2.2.1
    obtain ⟨N', e', w', a', d'⟩ := H_ok B h.2.1 h'.2 h.2.2.2.2
    have hc : N'.den.cols = N.den.rows := by rw [d, d']; exact h.2.2.1.symm
    refine ⟨.mul N' N, ?_, by rw [WF]; exact ⟨w', w, hc, a', a⟩, rfl, by rw [den, den, d, d', conjTranspose_mul _ _ h.2.2.1]⟩
    rw [H, e', e]
    show mkMul N' N = _
    rw [mkMul, a, a', shape_eq w, shape_eq w', if_neg (by simp), if_pos hc]
  | .smul c A, h, h', _ => by
    rw [WF] at h
    rw [Rev] at h'
    obtain ⟨N, e, w, a, d⟩ := H_ok A h.1 h' h.2
    refine ⟨.smul (star c) N, ?_, by rw [WF]; exact ⟨w, a⟩, rfl, by rw [den, den, d, conjTranspose_smul]⟩
    rw [H, e]
    show mkScale (star c) N = _
    rw [mkScale, a]; rfl
  | .pow A n, h, h', _ => by
    rw [WF] at h
    rw [Rev] at h'
    obtain ⟨N, e, w, a, d⟩ := H_ok A h.1 h' h.2.2
    have hs : N.den.rows = N.den.cols := by rw [d]; exact h.2.1.symm
    refine ⟨.pow N n, ?_, by rw [WF]; exact ⟨w, hs, a⟩, rfl, by rw [den, den, d, conjTranspose_pow _ h.2.1]⟩
    rw [H, e]
    show mkPow N n = _
    rw [mkPow, a, shape_eq w, if_neg (by simp), if_neg (by simpa using hs), if_neg (by omega)]
    simp
  | .adj A, h, h', _ => ⟨.adj (.adj A), rfl, by rw [WF]; exact ⟨h, h', rfl⟩, rfl, by rw [den]⟩
  | .tr A, h, h', _ => ⟨.adj (.tr A), rfl, by rw [WF]; exact ⟨h, h', rfl⟩, rfl, by rw [den]⟩

end Op
end Verif
