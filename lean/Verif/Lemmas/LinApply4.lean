import Verif.Lemmas.LinApply2
import Verif.Lemmas.LinApply3
import Verif.Lemmas.AsDict
import Verif.Lemmas.Projector
import Mathlib.Data.Int.ModEq

namespace Verif
open List

namespace Act
variable {R : Type} [CommRing R] {a b : Act R} {A B : DMat R}
open NdArr DMat

theorem IsM.rows {l : List (Act R × ℕ)} {L : List (DMat R × ℕ)} (h : IsM l L) :
    (l.map fun M => M.1.rows * M.2).sum = (bdiag (expand L)).rows := by
  induction h with
  | nil => rfl
  | @cons a A l L h1 _ ih =>
    obtain ⟨h1, h2⟩ := h1
    have he : bdiag (expand (A :: L)) = bdiag2 (DMat.kron (one A.2) A.1) (bdiag (expand L)) := by
      rw [expand, flatMap_cons, bdiag_append, bdiag_replicate]; rfl
    rw [he, map_cons, sum_cons, ih, h1.rows, h2]
    simp [Nat.mul_comm]

theorem expand_sq {L : List (DMat R × ℕ)} (h : ∀ A ∈ L, A.1.rows = A.1.cols) :
    (bdiag (expand L)).rows = (bdiag (expand L)).cols := by
  rw [bdiag_rows, bdiag_cols]
  congr 1
  apply map_congr_left
  intro A hA
  obtain ⟨B, hB, hAB⟩ := mem_flatMap.1 hA
  rw [(mem_replicate.1 hAB).2]
  exact h B hB

theorem dsum_is {l : List (Act R × ℕ)} {L : List (DMat R × ℕ)} (h : IsM l L) (hne : l ≠ []) (hs : ∀ A ∈ L, A.1.rows = A.1.cols) :
    (dsum l).Is (bdiag (expand L)) := by
  refine Is.same h.rows (h.rows.trans (expand_sq hs)) rfl (fun X hX => directMM_eq h hne X hX) fun v hv => ?_
  show ∃ t, directMM l _ = _
  have := directMM_vec h hne v hv
  rw [← hv, this]
  exact ⟨_, by rw [mulVec_eq_flat]; rfl⟩

theorem takeFirst_toArr (Y : DMat R) (p : List ℕ) (hp : ∀ x ∈ p, x < Y.rows) (hl : p.length = Y.rows) :
    Y.toArr.takeFirst p = ((permMat p).mul Y).toArr := by
  rw [permMat_mul p Y hl.symm (fun x hx => hl ▸ hp x hx), toArr_eq (Y.pick _ _)]
  unfold takeFirst
  show NdArr.ofFn [p.length, Y.cols] _ = NdArr.ofFn [p.length, (range Y.cols).length] _
  rw [length_range]
  apply NdArr.ofFn_congr
  intro idx hidx
  rw [mem_indices] at hidx
  obtain ⟨i, t, hi, ht, rfl⟩ := forall₂_cons_right_iff.1 hidx
  obtain ⟨j, t', hj, ht', rfl⟩ := forall₂_cons_right_iff.1 ht
  cases ht'
  show Y.toArr.get [p.getD i 0, j] = (Y.pick p (range Y.cols)).e i j
  have hpi : p.getD i 0 < Y.rows := by rw [getD_eq_getElem _ _ hi]; exact hp _ (getElem_mem hi)
  rw [toArr_get Y hpi hj, pick_e hi (by simpa using hj)]
  congr 1
  rw [getD_eq_getElem _ _ (by simpa using hj)]
  simp

theorem takeFirst_vec (v : List R) (p : List ℕ) {n : ℕ} (hp : p ~ range n) (hv : v.length = n) :
    (NdArr.mk [n] v).takeFirst p = ⟨[n], (permMat p).mulVec v⟩ := by
  have hl : p.length = n := by rw [hp.length_eq, length_range]
  have e1 : (permMat p : DMat R).mulVec v = (range n).map fun i => v.getD (p.getD i 0) 0 := by
    rw [mulVec]
    show (range p.length).map _ = _
    rw [hl]
    apply map_congr_left
    intro i hi
    have hi := mem_range.1 hi
    show ∑ j ∈ Finset.range p.length, _ = _
    rw [hl]
    have hlt : p.getD i 0 < n := by
      rw [getD_eq_getElem _ _ (by omega)]
      exact mem_range.1 (hp.subset (getElem_mem _))
    rw [Finset.sum_eq_single (p.getD i 0)]
    · rw [permMat, of_e (by omega) (by omega), if_pos rfl, one_mul]
    · intro j hj hne
      rw [permMat, of_e (by omega) (by rw [hl]; exact Finset.mem_range.1 hj), if_neg (Ne.symm hne), zero_mul]
    · intro hn; exact absurd (Finset.mem_range.2 hlt) hn
  rw [e1]
  unfold takeFirst
  simp only [NdArr.ofFn, tail_cons, hl, indices, map_map, map_flatMap]
  congr 1
  rw [map_eq_flatMap]
  apply flatMap_congr
  intro i _
  simp [NdArr.get, ravel]

theorem perm_is {p : List ℕ} (hp : p ~ range p.length) : (perm p : Act R).Is (permMat p) := by
  refine Is.same rfl rfl rfl (fun X hX => ?_) fun v hv => ⟨[p.length], ?_⟩
  · show Except.ok (X.toArr.takeFirst p) = _
    rw [takeFirst_toArr X p (fun x hx => by rw [hX]; exact mem_range.1 (hp.subset hx)) hX.symm]
  · show Except.ok ((NdArr.mk [p.length] v).takeFirst p) = _
    rw [takeFirst_vec v p hp hv]

/-- Closures of `SumRep`. -/
theorem closure_is {l : List (Act R × ℕ)} {L : List (DMat R × ℕ)} (h : IsM l L) (hne : l ≠ []) {pre : Option (List ℕ)} {post : List ℕ}
    {m n : ℕ} (hpost : post ~ range m) (hpre : ∀ p ∈ pre, p ~ range n) (hm : (bdiag (expand L)).rows = m)
    (hn : (bdiag (expand L)).cols = n) :
    (closure l pre post m n).Is ((permMat post).mul ((bdiag (expand L)).mul (Op.preMat n pre))) := by
  have hlp : post.length = m := by rw [hpost.length_eq, length_range]
  obtain ⟨D, hD⟩ : ∃ D, D = bdiag (expand L) := ⟨_, rfl⟩
  obtain ⟨P, hP⟩ : ∃ P : DMat R, P = Op.preMat n pre := ⟨_, rfl⟩
  have hpn : ∀ p ∈ pre, p.length = n := fun p hp => by rw [(hpre p hp).length_eq, length_range]
  have hPr : P.rows = n := by rw [hP]; cases pre with | none => rfl | some p => exact hpn p rfl
  have hPc : P.cols = n := by rw [hP]; cases pre with | none => rfl | some p => exact hpn p rfl
  rw [← hP, ← hD]
  have hpost' : ∀ Y : DMat R, Y.rows = m → Y.toArr.takeFirst post = ((permMat post).mul Y).toArr := fun Y hY =>
    takeFirst_toArr Y post (fun x hx => by rw [hY]; exact mem_range.1 (hpost.subset hx)) (hlp.trans hY.symm)
  have hmm : ∀ X : DMat R, X.rows = n → (closure l pre post m n).mm X.toArr = .ok (((permMat post).mul (D.mul P)).mul X).toArr := by
    intro X hX
    have hpre' : X.toArr.takePre pre = (P.mul X).toArr := by
      rw [hP]
      cases pre with
      | none => show X.toArr = ((one n).mul X).toArr; rw [one_mul' X hX]
      | some p =>
        exact takeFirst_toArr X p (fun x hx => by rw [hX]; exact mem_range.1 ((hpre p rfl).subset hx)) ((hpn p rfl).trans hX.symm)
    show (do
      let y ← directMM l (X.toArr.takePre pre)
      Except.ok (y.takeFirst post)) = _
    rw [hpre', directMM_eq h hne (P.mul X) (by rw [mul_rows, hPr, hn])]
    show Except.ok (NdArr.takeFirst _ post) = _
    rw [hpost' ((bdiag (expand L)).mul (P.mul X)) hm, mul_assoc' _ _ _ (by show post.length = D.rows; rw [hlp, hD, hm]), mul_assoc' _ _ _ (by rw [hD, hn, hPr]), hD]
  refine Is.same hlp.symm hPc.symm rfl (fun X hX => hmm X (hX.trans hPc)) fun v hv => ?_
  have hv' : v.length = n := hv.trans hPc
  rw [show ((permMat post).mul (D.mul P)).cols = n from hPc]
  have e1 : (NdArr.mk [n] v).takePre pre = ⟨[(P.mulVec v).length], P.mulVec v⟩ := by
    rw [length_mulVec, hPr, hP]
    cases pre with
    | none => show NdArr.mk [n] v = ⟨[n], (one n).mulVec v⟩; rw [mulVec_one v hv']
    | some p => exact takeFirst_vec v p (hpre p rfl) hv'
  show ∃ t, (do
      let y ← directMM l ((NdArr.mk [n] v).takePre pre)
      Except.ok (y.takeFirst post)) = _
  rw [e1, directMM_vec h hne (P.mulVec v) (by rw [length_mulVec, hPr, hn])]
  show ∃ t, Except.ok (NdArr.takeFirst _ post) = _
  rw [hpost' ((bdiag (expand L)).mul (ofVec (P.mulVec v))) hm]
  rw [← hD, mulVec_mul _ _ _ (by show post.length = D.rows; rw [hlp, hD, hm]), mulVec_mul _ _ _ (by rw [hD, hn, hPr]),
    mulVec_eq_flat D, mulVec_eq_flat (permMat post)]
  have : ofVec (D.mul (ofVec (P.mulVec v))).flat = D.mul (ofVec (P.mulVec v)) := by
    apply flat_inj
    · show (flat _).length = _
      rw [length_flat]; simp [ofVec]
    · rfl
    · rw [ofVec_flat]
  rw [this]
  exact ⟨_, rfl⟩

theorem mapM_dot {l : List (Act R)} {L : List (DMat R)} (h : IsL l L) (X : DMat R) (hX : ∀ A ∈ L, X.rows = A.cols) :
    l.mapM (fun M => M.dot X.toArr) = Except.ok ((L.map fun A => A.mul X).map toArr) := by
  induction h with
  | nil => rfl
  | @cons a A l L h1 h2 ih =>
    rw [mapM_cons, h1.dot X (hX A (by simp)), ih fun B hB => hX B (by simp [hB])]
    rfl

theorem vstack_rows : ∀ L : List (DMat R), (vstack L).rows = (L.map DMat.rows).sum
  | [] => rfl
  | [A] => by simp [vstack]
  | A :: B :: L => by
    show A.rows + (vstack (B :: L)).rows = _
    rw [vstack_rows (B :: L)]; simp

theorem vstack_cols : ∀ L : List (DMat R), (vstack L).cols = (L.map DMat.cols).headD 0
  | [] => rfl
  | [A] => rfl
  | A :: B :: L => rfl

theorem flat_vstack_mul (X : DMat R) : ∀ L : List (DMat R), (∀ A ∈ L, X.rows = A.cols) →
    (L.map fun A => A.mul X).flatMap flat = ((vstack L).mul X).flat
  | [], _ => rfl
  | [A], _ => by simp [vstack]
  | A :: B :: L, h => by
    rw [map_cons, flatMap_cons, flat_vstack_mul X (B :: L) fun C hC => h C (mem_cons_of_mem _ hC),
      show vstack (A :: B :: L) = vstack2 A (vstack (B :: L)) from rfl,
      flat_vstack2_mul _ _ _ (by rw [vstack_cols]; exact (h A (by simp)).symm.trans (h B (by simp)))]

theorem concatMM_eq {l : List (Act R)} {L : List (DMat R)} (h : IsL l L) (hne : L ≠ []) (X : DMat R) (hX : ∀ A ∈ L, X.rows = A.cols) :
    concatMM l X.toArr = .ok ((vstack L).mul X).toArr := by
  unfold concatMM
  rw [mapM_dot h X hX]
  show concat0 ((L.map fun A => A.mul X).map toArr) = _
  rw [concat0_toArr _ (by simpa using hne) (k := X.cols) (by
    intro B hB; obtain ⟨A, _, rfl⟩ := mem_map.1 hB; rfl), flat_vstack_mul X L hX, toArr, mul_rows, mul_cols, vstack_rows, map_map]
  rfl

theorem concat_is {l : List (Act R)} {L : List (DMat R)} (h : IsL l L) (hne : L ≠ [])
    (hc : ∀ A ∈ L, ∀ B ∈ L, A.cols = B.cols) : (concat l).Is (vstack L) := by
  have hcol : ∀ A ∈ L, (vstack L).cols = A.cols := by
    intro A hA
    rw [vstack_cols]
    cases L with
    | nil => simp at hA
    | cons B L => exact hc B (by simp) A hA
  refine ⟨?_, ?_, fun X hX => concatMM_eq h hne X fun A hA => hX.trans (hcol A hA), fun v hv s _ => ?_⟩
  · rw [vstack_rows, ← h.rows]; rfl
  · rw [vstack_cols, ← h.cols]; rfl
  · have e := concatMM_eq h hne (ofVec v) fun A hA => hv.trans (hcol A hA)
    show ∃ t, Act.matmat _ ⟨[v.length, 1], v⟩ = _
    unfold Act.matmat
    rw [if_neg (by simp), if_neg (by simp only [headD_cons, not_not]; rw [hv, vstack_cols, h.cols])]
    rw [toArr_ofVec] at e
    exact ⟨_, by rw [mulVec_eq_flat]; exact e⟩

end Act
end Verif
