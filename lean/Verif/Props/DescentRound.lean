import Verif.Props.NullSpace
import Verif.Props.Descent
import Verif.Lemmas.DenseInv

/-!
# C96: what a round of the iterative solver returns
-/
namespace Verif
open List

section
variable {W U VT Q : DMat ℝ} {S : List ℝ} {tol : ℝ} {r : ℕ}

theorem krylovFinish_inv {R : Type} [CommRing R] {U Q : DMat R} (h : krylovFinish tol r U S = .ok Q) :
    ∃ rank, rank ≤ S.length ∧ Q = U.pick (range U.rows) (range rank) ∧
      ∀ (hS : S.Pairwise (· ≥ ·)) i, i < S.length → (i < rank ↔ S.getD i 0 > 10 * tol) := by
  classical
  refine ⟨S.countP (fun s => decide (s > 10 * tol)), countP_le_length, ?_, fun hS i hi => lt_countP_iff hS _ hi⟩
  unfold krylovFinish at h
  dsimp only at h
  have key : ∀ s : ℝ, (if countP (fun s => decide (s > 10 * tol)) S = 0 ∨ s < S.getD (countP (fun s => decide (s > 10 * tol)) S - 1) 0 / 100 then
      Except.ok (U.pick (range U.rows) (range (countP (fun s => decide (s > 10 * tol)) S))) else Except.error PyErr.assertion) = .ok Q →
      Q = U.pick (range U.rows) (range (countP (fun s => decide (s > 10 * tol)) S)) := by
    intro s hs
    split_ifs at hs
    injection hs with hs
    exact hs.symm
  split at h
  · cases hs : S[countP (fun s => decide (s > 10 * tol)) S]? with
    | none => rw [hs] at h; cases h
    | some s => rw [hs] at h; exact key s h
  · exact key 0 h

theorem econ_mulVec (h : IsEconSVD W U S VT) (y : List ℝ) {i : ℕ} (hi : i < W.rows) :
    (W.mulVec y).getD i 0 = ∑ j ∈ Finset.range S.length, U.e i j * (S.getD j 0 * (VT.mulVec y).getD j 0) := by
  have e := congrArg (fun M => (DMat.mulVec M y).getD i 0) h.eq
  refine e.trans ?_
  show (DMat.mulVec _ y).getD i 0 = _
  rw [DMat.mulVec_mul _ _ _ (by rw [h.Vr]; rfl), DMat.mulVec_mul _ _ _ (by rw [h.Uc]; rfl), DMat.getD_mulVec (by rw [h.Ur]; exact hi), h.Uc]
  refine Finset.sum_congr rfl fun j hj => ?_
  rw [sigma_mulVec _ _ _ (by simp [h.Vr]) (Finset.mem_range.1 hj)]
  rfl

/-- **C96, a round that ends at the limit.** If the columns of `W` span the solutions of the constraint (C96_complete) and its singular values are
zero or above the cutoff, the basis returned is an orthonormal basis of the solutions, as C26 assumes of a round. -/
theorem C96_round {C : DMat ℝ} (h : IsEconSVD W U S VT) (hcol : ∀ v : List ℝ, v.length = W.rows → (Null C v ↔ ∃ y : List ℝ, y.length = W.cols ∧ W.mulVec y = v))
    (hsep : ∀ s ∈ S, s = 0 ∨ s > 10 * tol) (htol : 0 ≤ tol) (hQ : krylovFinish tol r U S = .ok Q) : OrthoBasis W.rows Q (Null C) := by
  obtain ⟨rank, hr, rfl, hcut⟩ := krylovFinish_inv hQ
  have hcut := hcut h.sorted
  have hQe : ∀ i j, i < W.rows → j < rank → (U.pick (range U.rows) (range rank)).e i j = U.e i j := fun i j hi hj => by
    rw [DMat.pick_e (by simpa [h.Ur] using hi) (by simpa using hj), getD_range (by rw [h.Ur]; exact hi), getD_range hj]
  have hrows : (U.pick (range U.rows) (range rank)).rows = W.rows := by simp [DMat.pick, h.Ur]
  have hcols : (U.pick (range U.rows) (range rank)).cols = rank := by simp [DMat.pick]
  have hzero : ∀ j, j < S.length → ¬ j < rank → S.getD j 0 = 0 := fun j hj hn => by
    have hg : S.getD j 0 = S[j] := by rw [getD_eq_getElem?_getD, getElem?_eq_getElem hj, Option.getD_some]
    rcases hsep _ (getElem_mem hj) with h0 | h0
    · rw [hg, h0]
    · exact absurd ((hcut j hj).2 (hg ▸ h0)) hn
  have hpos : ∀ j < rank, S.getD j 0 ≠ 0 := fun j hj => by
    have := (hcut j (by omega)).1 hj
    intro h0
    rw [h0] at this
    linarith
  have hQv : ∀ (a : List ℝ) i, i < W.rows → ((U.pick (range U.rows) (range rank)).mulVec a).getD i 0 = ∑ j ∈ Finset.range rank, U.e i j * a.getD j 0 := fun a i hi => by
    rw [DMat.getD_mulVec (by rw [hrows]; exact hi), hcols]
    exact Finset.sum_congr rfl fun j hj => by rw [hQe i j hi (Finset.mem_range.1 hj)]
  have hWv : ∀ (y : List ℝ) i, i < W.rows → (W.mulVec y).getD i 0 = ∑ j ∈ Finset.range rank, U.e i j * (S.getD j 0 * (VT.mulVec y).getD j 0) := fun y i hi => by
    rw [econ_mulVec h y hi]
    symm
    refine Finset.sum_subset (Finset.range_mono hr) fun j hj hj' => ?_
    rw [hzero j (Finset.mem_range.1 hj) (fun hc => hj' (Finset.mem_range.2 hc)), zero_mul, mul_zero]
  refine ⟨hrows, ?_, fun v hv => (hcol v hv).trans ⟨?_, ?_⟩⟩
  · rw [hcols]
    refine DMat.ext hcols hcols fun i j hi hj => ?_
    have hi : i < rank := hcols ▸ hi
    have hj : j < rank := hcols ▸ hj
    have hU := congrArg (fun M => DMat.e M i j) h.Uorth
    change (U.conjTranspose.mul U).e i j = _ at hU
    rw [DMat.mul_e (by rw [show U.conjTranspose.rows = U.cols from rfl, h.Uc]; omega) (by rw [h.Uc]; omega), DMat.one_e (by omega) (by omega)] at hU
    rw [DMat.mul_e (by change i < (U.pick (range U.rows) (range rank)).cols; rw [hcols]; exact hi) (by rw [hcols]; exact hj), DMat.one_e hi hj, ← hU]
    rw [show (U.pick (range U.rows) (range rank)).conjTranspose.cols = W.rows from hrows, show U.conjTranspose.cols = W.rows from h.Ur]
    refine Finset.sum_congr rfl fun k hk => ?_
    rw [hQe k j (Finset.mem_range.1 hk) hj, DMat.conjTranspose_e, DMat.conjTranspose_e, hQe k i (Finset.mem_range.1 hk) hi]
  · rintro ⟨y, -, rfl⟩
    refine ⟨(range rank).map fun j => S.getD j 0 * (VT.mulVec y).getD j 0, by rw [hcols]; simp, ?_⟩
    refine DMat.vec_ext (by rw [DMat.length_mulVec, DMat.length_mulVec, hrows]) fun i hi => ?_
    have hi : i < W.rows := by rw [DMat.length_mulVec, hrows] at hi; exact hi
    rw [hQv _ i hi, hWv y i hi]
    refine Finset.sum_congr rfl fun j hj => ?_
    rw [getD_eq_getElem?_getD, getElem?_map, getElem?_range (Finset.mem_range.1 hj)]
    rfl
  · rintro ⟨a, -, rfl⟩
    obtain ⟨b, hb⟩ : ∃ b : List ℝ, b = (range S.length).map fun j => if j < rank then (S.getD j 0)⁻¹ * a.getD j 0 else 0 := ⟨_, rfl⟩
    have hbl : b.length = S.length := by rw [hb]; simp
    refine ⟨VT.conjTranspose.mulVec b, by simp [show VT.conjTranspose.rows = VT.cols from rfl, h.Vc], ?_⟩
    have hVb : VT.mulVec (VT.conjTranspose.mulVec b) = b := by
      rw [← DMat.mulVec_mul _ _ _ rfl, h.Vorth, DMat.mulVec_one _ hbl]
    refine DMat.vec_ext (by rw [DMat.length_mulVec, DMat.length_mulVec, hrows]) fun i hi => ?_
    have hi : i < W.rows := by rw [DMat.length_mulVec] at hi; exact hi
    rw [hWv _ i hi, hQv _ i hi, hVb]
    refine Finset.sum_congr rfl fun j hj => ?_
    have hj := Finset.mem_range.1 hj
    have : b.getD j 0 = (S.getD j 0)⁻¹ * a.getD j 0 := by
      rw [hb, getD_eq_getElem?_getD, getElem?_map, getElem?_range (by omega)]
      simp only [Option.map_some, Option.getD_some, if_pos hj]
    rw [this, ← mul_assoc (S.getD j 0), mul_inv_cancel₀ (hpos j hj), one_mul]

/-- **C96, how good the basis is.** Whatever `W` the descent stops with, every column `q` of the basis returned satisfies `|C q|² (10 tol)² ≤ 2 loss(W)`. -/
theorem C96_residual {C : DMat ℝ} (hC : C.cols = W.rows) (h : IsEconSVD W U S VT) (htol : 0 ≤ tol) (hQ : krylovFinish tol r U S = .ok Q) :
    ∀ j < Q.cols, nrm2 (C.mulVec (Q.col j)) * (10 * tol) ^ 2 ≤ 2 * descentLoss (C.toMatrix C.rows W.rows) (W.toMatrix W.rows W.cols) := by
  obtain ⟨rank, hr, rfl, hcut⟩ := krylovFinish_inv hQ
  have hcut := hcut h.sorted
  intro j hj
  have hj : j < rank := by simpa [DMat.pick] using hj
  have hjS : j < S.length := by omega
  have hs := (hcut j hjS).1 hj
  -- `W vⱼ = sⱼ uⱼ`
  have hWv : ∀ k < W.rows, ∑ m ∈ Finset.range W.cols, W.e k m * VT.e j m = U.e k j * S.getD j 0 := by
    intro k hk
    have e1 : (W.mulVec (VT.conjTranspose.col j)).getD k 0 = ∑ m ∈ Finset.range W.cols, W.e k m * VT.e j m := by
      rw [DMat.getD_mulVec hk]
      refine Finset.sum_congr rfl fun m hm => ?_
      rw [DMat.getD_col _ (by rw [show VT.conjTranspose.rows = VT.cols from rfl, h.Vc]; exact Finset.mem_range.1 hm), DMat.conjTranspose_e]
      rfl
    rw [← e1, econ_mulVec h _ hk]
    have e2 : VT.mulVec (VT.conjTranspose.col j) = (DMat.one S.length : DMat ℝ).col j := by
      rw [DMat.mulVec_col _ _ rfl (by rw [show VT.conjTranspose.cols = VT.rows from rfl, h.Vr]; exact hjS), h.Vorth]
    rw [e2, Finset.sum_eq_single j]
    · rw [DMat.getD_col _ (by simpa using hjS), DMat.one_e hjS hjS, if_pos rfl, mul_one]
    · intro m hm hne
      rw [DMat.getD_col _ (by simpa using Finset.mem_range.1 hm), DMat.one_e (Finset.mem_range.1 hm) hjS, if_neg hne, mul_zero, mul_zero]
    · exact fun hn => absurd (Finset.mem_range.2 hjS) hn
  have hv1 : ∑ m ∈ Finset.range W.cols, VT.e j m ^ 2 = 1 := by
    have := congrArg (fun M => DMat.e M j j) h.Vorth
    change (VT.mul VT.conjTranspose).e j j = _ at this
    rw [DMat.mul_e (by rw [h.Vr]; exact hjS) (by rw [show VT.conjTranspose.cols = VT.rows from rfl, h.Vr]; exact hjS), DMat.one_e hjS hjS, if_pos rfl, h.Vc] at this
    rw [← this]
    refine Finset.sum_congr rfl fun m _ => ?_
    rw [DMat.conjTranspose_e, pow_two]
    rfl
  -- the rows of `C uⱼ`
  have hCu : ∀ i < C.rows, (C.mulVec ((U.pick (range U.rows) (range rank)).col j)).getD i 0 * S.getD j 0 =
      ∑ m ∈ Finset.range W.cols, (∑ k ∈ Finset.range W.rows, C.e i k * W.e k m) * VT.e j m := by
    intro i hi
    rw [DMat.getD_mulVec hi, hC, Finset.sum_mul]
    rw [Finset.sum_congr rfl fun m _ => Finset.sum_mul _ _ _, Finset.sum_comm]
    refine Finset.sum_congr rfl fun k hk => ?_
    have hk := Finset.mem_range.1 hk
    rw [DMat.getD_col _ (by simpa [DMat.pick, h.Ur] using hk), DMat.pick_e (by simpa [h.Ur] using hk) (by simpa using hj), getD_range (by rw [h.Ur]; exact hk),
      getD_range hj, mul_assoc, ← hWv k hk, Finset.mul_sum]
    exact Finset.sum_congr rfl fun m _ => (mul_assoc _ _ _).symm
  have hloss : 2 * descentLoss (C.toMatrix C.rows W.rows) (W.toMatrix W.rows W.cols)
      = ∑ i ∈ Finset.range C.rows, ∑ m ∈ Finset.range W.cols, (∑ k ∈ Finset.range W.rows, C.e i k * W.e k m) ^ 2 := by
    rw [descentLoss, mul_div_cancel₀ _ two_ne_zero, ← Fin.sum_univ_eq_sum_range (fun i => ∑ m ∈ Finset.range W.cols, (∑ k ∈ Finset.range W.rows, C.e i k * W.e k m) ^ 2)]
    refine Finset.sum_congr rfl fun i _ => ?_
    rw [← Fin.sum_univ_eq_sum_range (fun m => (∑ k ∈ Finset.range W.rows, C.e i k * W.e k m) ^ 2)]
    refine Finset.sum_congr rfl fun m _ => ?_
    rw [sq_abs, Matrix.mul_apply, ← Fin.sum_univ_eq_sum_range (fun k => C.e i k * W.e k m)]
    rfl
  rw [hloss, nrm2, DMat.length_mulVec, Finset.sum_mul]
  refine Finset.sum_le_sum fun i hi => ?_
  have hi := Finset.mem_range.1 hi
  have hcs := Finset.sum_mul_sq_le_sq_mul_sq (Finset.range W.cols) (fun m => ∑ k ∈ Finset.range W.rows, C.e i k * W.e k m) (fun m => VT.e j m)
  rw [hv1, mul_one, ← hCu i hi, mul_pow] at hcs
  refine le_trans ?_ hcs
  rw [Real.norm_eq_abs, sq_abs]
  exact mul_le_mul_of_nonneg_left (pow_le_pow_left₀ (by positivity) hs.le 2) (sq_nonneg _)

open Matrix in
theorem toMatrix_mulVec (A : DMat ℝ) (v : List ℝ) (i : Fin A.rows) :
    (A.toMatrix A.rows A.cols *ᵥ fun k => v.getD k 0) i = (A.mulVec v).getD i 0 := by
  rw [DMat.getD_mulVec i.2, ← Fin.sum_univ_eq_sum_range (fun k => A.e i k * v.getD k 0)]
  rfl

open Matrix in
theorem null_toMatrix (C : DMat ℝ) (v : List ℝ) : Null C v ↔ (C.toMatrix C.rows C.cols *ᵥ fun k => v.getD k 0) = 0 := by
  constructor
  · intro h
    funext i
    rw [toMatrix_mulVec, h]
    simp
  · intro h
    refine DMat.vec_ext (by simp) fun i hi => ?_
    have hi : i < C.rows := by simpa using hi
    rw [← toMatrix_mulVec C v ⟨i, hi⟩, h]
    simp

open Matrix in
/-- **C96, the solver in the limit.** Suppose every round of `krylov_constraint_solve` ends with the limit of its descent (the ideal case of a
tolerance that is met exactly), with a learning rate below the bound of C96_converges, from a start whose columns pair with the solutions with full
rank (almost every start), and with singular values that are zero or above the cutoff.  Then the solver returns an orthonormal basis of all
solutions of the constraint, unless the memory guard stops it. -/
theorem C96_limit_solve {C : DMat ℝ} {upto : ℕ → Py (DMat ℝ)} {fuel : ℕ} (htol : 0 ≤ tol) (hmem : C.rows * 10 ≤ 2000000000)
    (hround : ∀ r Q, upto r = .ok Q → ∃ (lr : ℝ) (W₀ : Matrix (Fin C.cols) (Fin r) ℝ) (W U VT : DMat ℝ) (S : List ℝ), W.rows = C.cols ∧ W.cols = r ∧ 0 < lr ∧
      (∀ x, x ≠ 0 → lr * ((C.toMatrix C.rows C.cols *ᵥ x) ⬝ᵥ (C.toMatrix C.rows C.cols *ᵥ x)) < 3.8 * (x ⬝ᵥ x)) ∧
      (∀ i j, Filter.Tendsto (fun t => (descentRun lr (C.toMatrix C.rows C.cols) W₀ t).W i j) Filter.atTop (nhds (W.toMatrix C.cols r i j))) ∧
      ((∀ x, C.toMatrix C.rows C.cols *ᵥ x = 0 → x ᵥ* W₀ = 0 → x = 0) ∨ (∀ y, (∀ x, C.toMatrix C.rows C.cols *ᵥ x = 0 → (x ᵥ* W₀) ⬝ᵥ y = 0) → y = 0)) ∧
      IsEconSVD W U S VT ∧ (∀ s ∈ S, s = 0 ∨ s > 10 * tol) ∧ krylovFinish tol r U S = .ok Q)
    (h : krylovSolve C.rows upto fuel = some (.ok Q)) : OrthoBasis C.cols Q (Null C) ∨ C.rows * (2 * Q.cols) > 2000000000 := by
  refine C26_basis hmem (fun r Q hQ hne => ?_) h
  obtain ⟨lr, W₀, W, U, VT, S, w1, w2, hlr, hcurv, hlim, hgen, hsvd, hsep, hfin⟩ := hround r Q hQ
  obtain ⟨L, hL1, hL2, K, ρ, r0, r1, hK⟩ := C96_converges hlr hcurv W₀
  have hLW : W.toMatrix C.cols r = L := by
    ext i j
    refine tendsto_nhds_unique (hlim i j) ?_
    rw [tendsto_iff_norm_sub_tendsto_zero]
    refine squeeze_zero (fun t => norm_nonneg _) (fun t => hK t i j) ?_
    have := (tendsto_pow_atTop_nhds_zero_of_lt_one r0 r1).const_mul K
    rwa [mul_zero] at this
  subst w2
  -- columns of `W`
  have hWv : ∀ (y : List ℝ) (k : Fin C.cols), (L *ᵥ fun k => y.getD k 0) k = (W.mulVec y).getD k 0 := by
    intro y k
    rw [← hLW, ← toMatrix_mulVec W y ⟨k, by rw [w1]; exact k.2⟩]
    rfl
  rcases hgen with hgen | hgen
  · rw [← w1]
    refine C96_round hsvd (fun v hv => ?_) hsep htol hfin
    rw [null_toMatrix, C96_complete hL1 hL2 hgen]
    constructor
    · rintro ⟨y, hy⟩
      refine ⟨List.ofFn y, by simp, DMat.vec_ext (by simpa using hv.symm) fun i hi => ?_⟩
      have hi : i < C.cols := by rw [← w1]; simpa using hi
      rw [← hWv _ ⟨i, hi⟩]
      have : (fun k : Fin W.cols => (List.ofFn y).getD k 0) = y := by
        funext k
        simp [getD_eq_getElem?_getD, List.getElem?_ofFn]
      rw [this]
      exact congrFun hy ⟨i, hi⟩
    · rintro ⟨y, -, rfl⟩
      exact ⟨fun k => y.getD k 0, funext fun k => hWv y k⟩
  · -- the rank limit is reached
    exfalso
    have hinj : ∀ y, L *ᵥ y = 0 → y = 0 := by
      intro y hy
      refine hgen y fun x hx => ?_
      rw [← hL2 x hx, ← Matrix.dotProduct_mulVec, hy, dotProduct_zero]
    obtain ⟨rank, hr, rfl, hcut⟩ := krylovFinish_inv hfin
    have hcut := hcut hsvd.sorted
    refine hne ?_
    have hcols : (U.pick (range U.rows) (range rank)).cols = rank := by simp [DMat.pick]
    rw [hcols]
    have hle : W.cols ≤ W.rows := by
      have := LinearMap.finrank_le_finrank_of_injective (f := L.mulVecLin) (by
        rw [← LinearMap.ker_eq_bot, LinearMap.ker_eq_bot']
        exact hinj)
      simpa [w1] using this
    have hlen : S.length = W.cols := by rw [hsvd.len]; omega
    have hfull : ∀ j < S.length, j < rank := by
      intro j hj
      rw [hcut j hj]
      have hg : S.getD j 0 = S[j] := by rw [getD_eq_getElem?_getD, getElem?_eq_getElem hj, Option.getD_some]
      rcases hsep _ (getElem_mem hj) with h0 | h0
      · exfalso
        obtain ⟨y, hy⟩ : ∃ y, y = VT.conjTranspose.col j := ⟨_, rfl⟩
        have e2 : VT.mulVec y = (DMat.one S.length : DMat ℝ).col j := by
          rw [hy, DMat.mulVec_col _ _ rfl (by rw [show VT.conjTranspose.cols = VT.rows from rfl, hsvd.Vr]; exact hj), hsvd.Vorth]
        have hz : (fun k : Fin W.cols => y.getD k 0) = 0 := by
          refine hinj _ (funext fun k => ?_)
          rw [hWv, econ_mulVec hsvd _ (by rw [w1]; exact k.2), e2]
          refine Finset.sum_eq_zero fun m hm => ?_
          have hm := Finset.mem_range.1 hm
          rw [DMat.getD_col _ (by simpa using hm), DMat.one_e hm hj]
          by_cases hmj : m = j
          · rw [hmj, hg, h0, zero_mul, mul_zero]
          · rw [if_neg hmj, mul_zero, mul_zero]
        have hz' : ∀ k < W.cols, y.getD k 0 = 0 := fun k hk => congrFun hz ⟨k, hk⟩
        have e3 : (VT.mulVec y).getD j 0 = 0 := by
          rw [DMat.getD_mulVec (by rw [hsvd.Vr]; exact hj), hsvd.Vc]
          exact Finset.sum_eq_zero fun k hk => by rw [hz' k (Finset.mem_range.1 hk), mul_zero]
        rw [e2, DMat.getD_col _ (by simpa using hj), DMat.one_e hj hj, if_pos rfl] at e3
        exact one_ne_zero e3
      · rw [hg]; exact h0
    have : S.length ≤ rank := by
      by_contra hc
      have := hfull rank (by omega)
      omega
    omega


/-! ### Complex constraints -/

/-- Real and imaginary part of a complex matrix on top of each other. -/
def stackRI {c n : ℕ} (C : Matrix (Fin c) (Fin n) ℂ) : Matrix (Fin (c + c)) (Fin n) ℝ :=
  Matrix.of fun i j => Fin.addCases (fun i => (C i j).re) (fun i => (C i j).im) i

/-- **C96, complex constraints.** The start is real, and on real `W` the loss `|C W|²/2` of a complex `C` is the loss of its real and imaginary parts. -/
theorem C96_complex_loss {c n r : ℕ} (C : Matrix (Fin c) (Fin n) ℂ) (W : Matrix (Fin n) (Fin r) ℝ) :
    (∑ i, ∑ j, ‖(C * W.map (fun x => (x : ℂ))) i j‖ ^ 2) / 2 = descentLoss (stackRI C) W := by
  have e1 : ∀ i j, ((stackRI C) * W) (Fin.castAdd c i) j = ((C * W.map (fun x => (x : ℂ))) i j).re := by
    intro i j
    rw [Matrix.mul_apply, Matrix.mul_apply, Complex.re_sum]
    exact Finset.sum_congr rfl fun k _ => by simp [stackRI]
  have e2 : ∀ i j, ((stackRI C) * W) (Fin.natAdd c i) j = ((C * W.map (fun x => (x : ℂ))) i j).im := by
    intro i j
    rw [Matrix.mul_apply, Matrix.mul_apply, Complex.im_sum]
    exact Finset.sum_congr rfl fun k _ => by rw [stackRI, Matrix.of_apply, Fin.addCases_right]; simp
  rw [descentLoss, Fin.sum_univ_add, ← Finset.sum_add_distrib]
  congr 1
  refine Finset.sum_congr rfl fun i _ => ?_
  rw [← Finset.sum_add_distrib]
  refine Finset.sum_congr rfl fun j _ => ?_
  rw [e1, e2, sq_abs, sq_abs, Complex.sq_norm, Complex.normSq_apply, pow_two, pow_two]

open Matrix in
/-- **C96, complex constraints.** So the iterative solver finds real solutions only.  The constraint `[1, i]` is solved by `(1, i)`, but the descent
tends to zero from every start. -/
theorem C96_counterexample_complex : (!![1, Complex.I] : Matrix (Fin 1) (Fin 2) ℂ) *ᵥ ![1, Complex.I] = 0 ∧
    ∀ (r : ℕ) (W₀ : Matrix (Fin 2) (Fin r) ℝ) (i : Fin 2) (j : Fin r),
      Filter.Tendsto (fun t => (descentRun 0.01 (stackRI !![1, Complex.I]) W₀ t).W i j) Filter.atTop (nhds 0) := by
  have hS : stackRI !![1, Complex.I] = (1 : Matrix (Fin 2) (Fin 2) ℝ) := by
    ext i j
    fin_cases i <;> fin_cases j <;> simp [stackRI, Fin.addCases]
  constructor
  · funext i
    fin_cases i
    simp [Matrix.mulVec, dotProduct, Fin.sum_univ_two]
  · intro r W₀ i j
    rw [hS]
    obtain ⟨L, hL, -, K, ρ, r0, r1, hK⟩ := C96_converges (C := (1 : Matrix (Fin 2) (Fin 2) ℝ)) (lr := 0.01) (by norm_num) (fun x hx => by
      rw [Matrix.one_mulVec]
      have : 0 < x ⬝ᵥ x := lt_of_le_of_ne (Finset.sum_nonneg fun k _ => mul_self_nonneg _) (fun h => hx (dotProduct_self_eq_zero.1 h.symm))
      nlinarith) W₀
    rw [Matrix.one_mul] at hL
    rw [tendsto_zero_iff_norm_tendsto_zero]
    refine squeeze_zero (fun t => norm_nonneg _) (fun t => ?_) (g := fun t => K * ρ ^ t) ?_
    · have := hK t i j
      rw [hL, Matrix.zero_apply, sub_zero] at this
      exact this
    · have := (tendsto_pow_atTop_nhds_zero_of_lt_one r0 r1).const_mul K
      rwa [mul_zero] at this

/-! ### The hypotheses are met -/

open Matrix in
/-- The invariance constraint of a swap of two coordinates, with the first learning rate: the hypothesis of C96_converges, C96_loss and C96_test. -/
example (x : Fin 2 → ℝ) (hx : x ≠ 0) : 0.01 / 3 ^ 0 * ((!![1, -1; -1, 1] *ᵥ x) ⬝ᵥ (!![1, -1; -1, 1] *ᵥ x)) < 3.8 * (x ⬝ᵥ x) := by
  have : 0 < x ⬝ᵥ x := lt_of_le_of_ne (Finset.sum_nonneg fun k _ => mul_self_nonneg _) (fun h => hx (dotProduct_self_eq_zero.1 h.symm))
  simp only [Matrix.mulVec, dotProduct, Fin.sum_univ_two] at *
  simp at *
  nlinarith [sq_nonneg (x 0 + x 1)]

open Matrix in
/-- A start whose columns pair with the solutions of that constraint with full rank. -/
example (x : Fin 2 → ℝ) (hx : !![1, -1; -1, 1] *ᵥ x = 0) (h : x ᵥ* (!![1; 0] : Matrix (Fin 2) (Fin 1) ℝ) = 0) : x = 0 := by
  have h1 := congrFun hx 0
  have h2 := congrFun h 0
  simp [Matrix.mulVec, Matrix.vecMul, dotProduct, Fin.sum_univ_two] at h1 h2
  funext i
  fin_cases i
  · exact h2
  · simp only [Fin.mk_one, Pi.zero_apply]; linarith

open Matrix in
/-- With the first learning rate the losses of the constraint `[20]` are unbounded. -/
example (B : ℝ) : ∃ t, B < descentLoss !![20] (descentRun 0.01 !![20] (!![1] : Matrix (Fin 1) (Fin 1) ℝ) t).W := by
  refine C96_diverges (v := ![1]) (l := 400) (by norm_num) ?_ (by norm_num) _ ?_ B
  · funext i
    fin_cases i
    simp [Matrix.mulVec, dotProduct]
    norm_num
  · intro h
    have := congrFun h 0
    simp [Matrix.vecMul, dotProduct] at this

/-- The constraint `[1, 0]`, the array with the solution `(0, 1)` in its first of ten columns, and its decomposition. -/
noncomputable def exRoundC : DMat ℝ := DMat.of 1 2 fun _ j => if j = 0 then 1 else 0
noncomputable def exRoundW : DMat ℝ := DMat.of 2 10 fun i j => if i = 1 ∧ j = 0 then 1 else 0
noncomputable def exRoundU : DMat ℝ := DMat.of 2 2 fun i j => if i + j = 1 then 1 else 0
noncomputable def exRoundV : DMat ℝ := DMat.of 2 10 fun i j => if i = j then 1 else 0

theorem exRound_svd : IsEconSVD exRoundW exRoundU [1, 0] exRoundV := by
  refine ⟨rfl, rfl, rfl, rfl, ?_, ?_, rfl, by simp, by simp, ?_⟩
  · refine DMat.ext rfl rfl fun i j hi hj => ?_
    have hi : i < 2 := hi
    have hj : j < 2 := hj
    show (exRoundU.conjTranspose.mul exRoundU).e i j = (DMat.one 2).e i j
    rw [DMat.mul_e hi hj, DMat.one_e hi hj, show exRoundU.conjTranspose.cols = 2 from rfl]
    interval_cases i <;> interval_cases j <;> simp [Finset.sum_range_succ, DMat.conjTranspose_e, exRoundU, DMat.of]
  · refine DMat.ext rfl rfl fun i j hi hj => ?_
    have hi : i < 2 := hi
    have hj : j < 2 := hj
    show (exRoundV.mul exRoundV.conjTranspose).e i j = (DMat.one 2).e i j
    rw [DMat.mul_e hi hj, DMat.one_e hi hj, show exRoundV.cols = 10 from rfl]
    interval_cases i <;> interval_cases j <;> simp [Finset.sum_range_succ, DMat.conjTranspose_e, exRoundV, DMat.of]
  · refine DMat.ext rfl rfl fun i j hi hj => ?_
    have hi : i < 2 := hi
    have hj : j < 10 := hj
    have e : ∀ k < 2, (exRoundU.mul (sigmaMat 2 2 [1, 0])).e i k = if i = 1 ∧ k = 0 then 1 else 0 := by
      intro k hk
      rw [DMat.mul_e hi hk, show exRoundU.cols = 2 from rfl]
      interval_cases i <;> interval_cases k <;> simp [Finset.sum_range_succ, exRoundU, DMat.of, sigmaMat]
    show exRoundW.e i j = ((exRoundU.mul (sigmaMat 2 2 [1, 0])).mul exRoundV).e i j
    rw [DMat.mul_e (by exact hi) hj, show (exRoundU.mul (sigmaMat 2 2 [1, 0])).cols = 2 from rfl, Finset.sum_range_succ, Finset.sum_range_one,
      e 0 (by omega), e 1 (by omega)]
    interval_cases i <;> interval_cases j <;> simp [exRoundW, exRoundV, DMat.of]

theorem exRound_finish : ∃ Q, krylovFinish 1e-5 10 exRoundU [1, 0] = .ok Q ∧ Q.cols = 1 := by
  refine ⟨_, C29_finish_partial 1e-5 10 exRoundU [1, 0] 1 (by simp) (by simp) ?_ ?_ ?_ (by norm_num) (.inl (by simp)), by simp [DMat.pick]⟩
  · intro i hi
    interval_cases i
    norm_num
  · intro i h1 h2
    have h2 : i < 2 := h2
    interval_cases i
    norm_num
  · intro i hi _
    interval_cases i
    norm_num

open Matrix in
theorem exRound_fixed (t : ℕ) : (descentRun 0.01 (exRoundC.toMatrix 1 2) (exRoundW.toMatrix 2 10) t) = ⟨exRoundW.toMatrix 2 10, 0⟩ := by
  have h0 : exRoundC.toMatrix 1 2 * exRoundW.toMatrix 2 10 = 0 := by
    ext i j
    rw [Matrix.mul_apply, Fin.sum_univ_two]
    simp [DMat.toMatrix, exRoundC, exRoundW, DMat.of]
  induction t with
  | zero => rfl
  | succ t ih =>
    show descentStep _ _ (descentRun 0.01 (exRoundC.toMatrix 1 2) (exRoundW.toMatrix 2 10) t) = _
    rw [ih]
    simp [descentStep, descentGrad, h0]

open Matrix in
/-- A run of the solver that meets the hypotheses of C96_limit_solve (and those of C96_round and C96_residual): it returns one solution. -/
example : ∃ Q, krylovSolve exRoundC.rows (fun r => if r = 10 then krylovFinish 1e-5 10 exRoundU [1, 0] else .error .convergence) 6 = some (.ok Q) ∧
    Q.cols = 1 ∧ OrthoBasis 2 Q (Null exRoundC) := by
  obtain ⟨Q, hQ, hc⟩ := exRound_finish
  have hrun : krylovSolve exRoundC.rows (fun r => if r = 10 then krylovFinish 1e-5 10 exRoundU [1, 0] else .error .convergence) 6 = some (.ok Q) := by
    simp [krylovSolve, krylovLoop, exRoundC, DMat.of, hQ, hc, readQ]
  refine ⟨Q, hrun, hc, ?_⟩
  refine (C96_limit_solve (C := exRoundC) (tol := 1e-5) (by norm_num) (by simp [exRoundC, DMat.of]) (fun r Q' h => ?_) hrun).resolve_right
    (by rw [hc]; simp [exRoundC, DMat.of])
  by_cases hr : r = 10
  · subst hr
    rw [if_pos rfl] at h
    refine ⟨0.01, exRoundW.toMatrix 2 10, exRoundW, exRoundU, exRoundV, [1, 0], rfl, rfl, by norm_num, ?_, ?_, .inl ?_, exRound_svd, ?_, h⟩
    · intro x hx
      have hpos : 0 < x ⬝ᵥ x := lt_of_le_of_ne (Finset.sum_nonneg fun k _ => mul_self_nonneg _) (fun h => hx (dotProduct_self_eq_zero.1 h.symm))
      have e : (exRoundC.toMatrix 1 2 *ᵥ x) ⬝ᵥ (exRoundC.toMatrix 1 2 *ᵥ x) = x (0 : Fin 2) * x (0 : Fin 2) := by
        have : ∀ i, (exRoundC.toMatrix 1 2 *ᵥ x) i = x (0 : Fin 2) := by
          intro i
          show ∑ k : Fin 2, exRoundC.e i k * x k = _
          rw [Fin.sum_univ_two]
          simp [exRoundC, DMat.of]
        simp [dotProduct, this]
      have e2 : x ⬝ᵥ x = x (0 : Fin 2) * x (0 : Fin 2) + x (1 : Fin 2) * x (1 : Fin 2) := Fin.sum_univ_two _
      change 0.01 * ((exRoundC.toMatrix 1 2 *ᵥ x) ⬝ᵥ (exRoundC.toMatrix 1 2 *ᵥ x)) < _
      rw [e]
      nlinarith [mul_self_nonneg (x (1 : Fin 2))]
    · intro i j
      have : ∀ t, (descentRun 0.01 (exRoundC.toMatrix exRoundC.rows exRoundC.cols) (exRoundW.toMatrix 2 10) t).W i j = exRoundW.toMatrix exRoundC.cols 10 i j :=
        fun t => congrFun (congrFun (congrArg DescentState.W (exRound_fixed t)) i) j
      simp only [this]
      exact tendsto_const_nhds
    · intro x hx hx'
      have h1 : x (0 : Fin 2) = 0 := by
        have := congrFun hx (0 : Fin 1)
        change ∑ k : Fin 2, exRoundC.e 0 k * x k = 0 at this
        rw [Fin.sum_univ_two] at this
        simpa [exRoundC, DMat.of] using this
      have h2 : x (1 : Fin 2) = 0 := by
        have := congrFun hx' (0 : Fin 10)
        change ∑ k : Fin 2, x k * exRoundW.e k 0 = 0 at this
        rw [Fin.sum_univ_two] at this
        simpa [exRoundW, DMat.of] using this
      funext i
      change Fin 2 at i
      fin_cases i
      exacts [h1, h2]
    · intro s hs
      simp only [mem_cons, not_mem_nil, or_false] at hs
      rcases hs with rfl | rfl
      · right; norm_num
      · exact .inl rfl
  · rw [if_neg hr] at h
    cases h

end
end Verif
