import Verif.Spec.Approx
import Verif.Lemmas.NullSpace
import Verif.Lemmas.Cache

/-! Approximately invariant vectors of direct sums, tensor products and reindexed representations. -/
namespace Verif
open List DMat
variable {𝕜 : Type} [RCLike 𝕜] {W : World} {gens : Gid → GenSet 𝕜} {ε : ℝ}

theorem nrm2_nonneg (v : List 𝕜) : 0 ≤ nrm2 v := Finset.sum_nonneg fun _ _ => by positivity

theorem nrm2_append (v w : List 𝕜) : nrm2 (v ++ w) = nrm2 v + nrm2 w := by
  unfold nrm2
  rw [length_append, Finset.sum_range_add]
  congr 1
  · exact Finset.sum_congr rfl fun i hi => by rw [getD_append _ _ _ _ (Finset.mem_range.1 hi)]
  · exact Finset.sum_congr rfl fun i _ => by rw [getD_append_right _ _ _ _ (by omega), Nat.add_sub_cancel_left]

theorem dist2_append {v v' w w' : List 𝕜} (h : v.length = v'.length) : dist2 (v ++ w) (v' ++ w') = dist2 v v' + dist2 w w' := by
  unfold dist2
  rw [length_append, Finset.sum_range_add]
  congr 1
  · exact Finset.sum_congr rfl fun i hi => by
      have := Finset.mem_range.1 hi
      rw [getD_append _ _ _ _ this, getD_append _ _ _ _ (by omega)]
  · exact Finset.sum_congr rfl fun i _ => by
      rw [getD_append_right _ _ _ _ (by omega), Nat.add_sub_cancel_left, getD_append_right _ _ _ _ (by omega), h, Nat.add_sub_cancel_left]

theorem dist2_self (v : List 𝕜) : dist2 v v = 0 := by simp [dist2]

/-- difference of vectors -/
def vsub (x y : List 𝕜) : List 𝕜 := (range x.length).map fun i => x.getD i 0 - y.getD i 0

@[simp] theorem length_vsub (x y : List 𝕜) : (vsub x y).length = x.length := by simp [vsub]

theorem getD_vsub {x : List 𝕜} (y : List 𝕜) {i : ℕ} (hi : i < x.length) : (vsub x y).getD i 0 = x.getD i 0 - y.getD i 0 := by
  rw [getD_eq_getElem _ _ (by simpa)]
  simp [vsub]

theorem dist2_eq (x y : List 𝕜) : dist2 x y = nrm2 (vsub x y) := by
  unfold dist2 nrm2
  rw [length_vsub]
  exact Finset.sum_congr rfl fun i hi => by rw [getD_vsub _ (Finset.mem_range.1 hi)]

theorem mulVec_vsub (A : DMat 𝕜) {x y : List 𝕜} (hx : x.length = A.cols) : A.mulVec (vsub x y) = vsub (A.mulVec x) (A.mulVec y) := by
  refine vec_ext (by simp) fun i hi => ?_
  have hi' : i < A.rows := by simpa using hi
  rw [getD_mulVec hi', getD_vsub _ (by simpa), getD_mulVec hi', getD_mulVec hi', ← Finset.sum_sub_distrib]
  exact Finset.sum_congr rfl fun j hj => by rw [getD_vsub _ (by rw [hx]; exact Finset.mem_range.1 hj), mul_sub]

theorem dist2_unitary {A : DMat 𝕜} (h : A.conjTranspose.mul A = DMat.one A.cols) {x y : List 𝕜} (hx : x.length = A.cols) :
    dist2 (A.mulVec x) (A.mulVec y) = dist2 x y := by
  rw [dist2_eq, dist2_eq, ← mulVec_vsub _ hx, nrm2_unitary h (by simpa)]

theorem sub_one_nrm2 {A : DMat 𝕜} {n : ℕ} (hA : A.IsSq n) {v : List 𝕜} (hv : v.length = n) :
    nrm2 ((A.add (DMat.smul (-1) (DMat.one n))).mulVec v) = dist2 (A.mulVec v) v := by
  rw [dist2_eq]
  congr 1
  refine vec_ext (by simp [DMat.add]) fun i hi => ?_
  have hi : i < n := by simpa [DMat.add, hA.1] using hi
  rw [getD_vsub _ (by simpa [hA.1]), getD_mulVec (by simpa [DMat.add, hA.1] using hi), getD_mulVec (by rwa [hA.1])]
  have h1 := congrArg (fun w => List.getD w i 0) (mulVec_one (R := 𝕜) v hv)
  rw [getD_mulVec hi] at h1
  rw [← h1]
  simp only [DMat.add, of_cols, hA.2]
  rw [show (DMat.one n : DMat 𝕜).cols = n from rfl, ← Finset.sum_sub_distrib]
  refine Finset.sum_congr rfl fun j hj => ?_
  have hj := Finset.mem_range.1 hj
  rw [of_e (by rwa [hA.1]) hj, smul_e]
  ring

/-- A block of a stacked matrix. -/
theorem vstack_nrm2 {n : ℕ} {A : DMat 𝕜} {v : List 𝕜} : ∀ {l : List (DMat 𝕜)}, (∀ A ∈ l, A.cols = n) → A ∈ l →
    nrm2 (A.mulVec v) ≤ nrm2 ((vstack l).mulVec v)
  | [B], _, h => by rw [mem_singleton.1 h]; rfl
  | B :: B' :: t, hc, h => by
    have e : vstack (B :: B' :: t) = vstack2 B (vstack (B' :: t)) := rfl
    have hc' := (vstack_ker (l := B' :: t) (n := n) (by simp) fun X hX => hc X (by simp_all)).1
    rw [e, vstack2_mulVec _ _ _ (by rw [hc', hc B (by simp)]), nrm2_append]
    have n1 := nrm2_nonneg (B.mulVec v)
    have n2 := nrm2_nonneg ((vstack (B' :: t)).mulVec v)
    rcases mem_cons.1 h with rfl | h
    · linarith
    · have := vstack_nrm2 (v := v) (l := B' :: t) (fun X hX => hc X (by simp_all)) h
      linarith

theorem nrm2_flat (N : DMat 𝕜) : nrm2 N.flat = ∑ j ∈ Finset.range N.cols, nrm2 (N.col j) := by
  unfold nrm2
  rw [length_flat, sum_range_mul, Finset.sum_comm]
  refine Finset.sum_congr rfl fun j hj => ?_
  rw [length_col]
  exact Finset.sum_congr rfl fun i hi => by
    rw [getD_flat _ (Finset.mem_range.1 hi) (Finset.mem_range.1 hj), getD_col _ (Finset.mem_range.1 hi)]

theorem nrm2_flat' (N : DMat 𝕜) : nrm2 N.flat = nrm2 N.transpose.flat := by
  unfold nrm2
  rw [length_flat, length_flat, sum_range_mul, sum_range_mul, Finset.sum_comm]
  refine Finset.sum_congr rfl fun j hj => Finset.sum_congr rfl fun i hi => ?_
  rw [getD_flat _ (Finset.mem_range.1 hi) (Finset.mem_range.1 hj),
    getD_flat N.transpose (i := j) (j := i) (Finset.mem_range.1 hj) (Finset.mem_range.1 hi), transpose_e]

theorem dist2_flat {N N' : DMat 𝕜} (hr : N.rows = N'.rows) (hc : N.cols = N'.cols) :
    dist2 N.flat N'.flat = ∑ j ∈ Finset.range N.cols, dist2 (N.col j) (N'.col j) := by
  unfold dist2
  rw [length_flat, sum_range_mul, Finset.sum_comm]
  refine Finset.sum_congr rfl fun j hj => ?_
  rw [length_col]
  refine Finset.sum_congr rfl fun i hi => ?_
  have hi := Finset.mem_range.1 hi
  have hj := Finset.mem_range.1 hj
  have e := getD_flat N' (i := i) (j := j) (by omega) (by omega)
  rw [← hc] at e
  rw [getD_flat _ hi hj, getD_col _ hi, getD_col _ (by omega), e]

theorem dist2_flat' {N N' : DMat 𝕜} (hr : N.rows = N'.rows) (hc : N.cols = N'.cols) :
    dist2 N.flat N'.flat = dist2 N.transpose.flat N'.transpose.flat := by
  rw [dist2_flat (N := N.transpose) (N' := N'.transpose) hc hr, transpose_cols]
  unfold dist2
  rw [length_flat, sum_range_mul]
  refine Finset.sum_congr rfl fun i hi => ?_
  rw [length_col, transpose_rows]
  refine Finset.sum_congr rfl fun j hj => ?_
  have hi := Finset.mem_range.1 hi
  have hj := Finset.mem_range.1 hj
  have e := getD_flat N' (i := i) (j := j) (by omega) (by omega)
  rw [← hc] at e
  rw [getD_flat _ hi hj, getD_col _ (by simpa), getD_col _ (by rw [transpose_rows]; omega), e, transpose_e, transpose_e]

/-! ### `NearBasis` -/
namespace NearBasis
variable {m n : ℕ} {P Q : DMat 𝕜} {F G H F' G' H' : List 𝕜 → Prop}

/-- The span of the columns. -/
theorem span (h : NearBasis n Q F F') : OrthoBasis n Q fun v => ∃ a : List 𝕜, a.length = Q.cols ∧ Q.mulVec a = v :=
  ⟨h.rows, h.orth, fun _ _ => Iff.rfl⟩

theorem congr (h : NearBasis n Q F F') (h1 : ∀ v, v.length = n → H v → F v) (h2 : ∀ v, v.length = n → F' v → H' v) : NearBasis n Q H H' :=
  ⟨h.rows, h.orth, fun v hv hh => h.complete v hv (h1 v hv hh), fun a ha => h2 _ (by simp [h.rows]) (h.near a ha)⟩

theorem bdiag2 (hP : NearBasis m P F F') (hQ : NearBasis n Q G G')
    (hH : ∀ v w, v.length = m → w.length = n → H (v ++ w) → F v ∧ G w)
    (hH' : ∀ v w, v.length = m → w.length = n → F' v → G' w → H' (v ++ w)) : NearBasis (m + n) (bdiag2 P Q) H H' := by
  have h := OrthoBasis.bdiag2 (H := fun v => (∃ a : List 𝕜, a.length = P.cols ∧ P.mulVec a = v.take m) ∧
    ∃ a : List 𝕜, a.length = Q.cols ∧ Q.mulVec a = v.drop m) hP.span hQ.span fun v w hv hw => by simp [← hv]
  refine ⟨h.rows, h.orth, fun v hv hh => ?_, fun a ha => ?_⟩
  · have e : v = v.take m ++ v.drop m := (take_append_drop m v).symm
    have h1 : (v.take m).length = m := by simp [hv]
    have h2 : (v.drop m).length = n := by simp [hv]
    rw [e] at hh
    obtain ⟨x, y⟩ := hH _ _ h1 h2 hh
    exact (h.span v hv).1 ⟨hP.complete _ h1 x, hQ.complete _ h2 y⟩
  · obtain ⟨v, hv⟩ : ∃ v, v = (DMat.bdiag2 P Q).mulVec a := ⟨_, rfl⟩
    have hl : v.length = m + n := by rw [hv, length_mulVec, h.rows]
    obtain ⟨⟨b, hb, eb⟩, c, hc, ec⟩ := (h.span v hl).2 ⟨a, ha, hv.symm⟩
    rw [← hv, ← take_append_drop m v]
    exact hH' _ _ (by simp [hl]) (by simp [hl]) (eb ▸ hP.near b hb) (ec ▸ hQ.near c hc)

theorem kron (hP : NearBasis m P F F') (hQ : NearBasis n Q G G')
    (hH : ∀ M : DMat 𝕜, M.rows = m → M.cols = n → H M.flat → (∀ j < n, F (M.col j)) ∧ ∀ i < m, G (M.transpose.col i))
    (hH' : ∀ M : DMat 𝕜, M.rows = m → M.cols = n → (∀ j < n, F' (M.col j)) → (∀ i < m, G' (M.transpose.col i)) → H' M.flat) :
    NearBasis (m * n) (DMat.kron P Q) H H' := by
  have h := OrthoBasis.kron (H := fun v => (∀ j < n, ∃ a : List 𝕜, a.length = P.cols ∧ P.mulVec a = (unflat m n v).col j) ∧
    ∀ i < m, ∃ a : List 𝕜, a.length = Q.cols ∧ Q.mulVec a = (unflat m n v).transpose.col i) hP.span hQ.span fun M hr hc => by
      have : unflat m n M.flat = M :=
        flat_inj (by simp [unflat, hr]) (by simp [unflat, hc]) (unflat_flat (by rw [length_flat, hr, hc]))
      rw [this]
  refine ⟨h.rows, h.orth, fun v hv hh => ?_, fun a ha => ?_⟩
  · refine (h.span v hv).1 ?_
    rw [← unflat_flat hv] at hh
    obtain ⟨x, y⟩ := hH _ rfl rfl hh
    exact ⟨fun j hj => hP.complete _ (by simp [unflat]) (x j hj), fun j hj => hQ.complete _ (by simp [unflat]) (y j hj)⟩
  · obtain ⟨v, hv⟩ : ∃ v, v = (DMat.kron P Q).mulVec a := ⟨_, rfl⟩
    have hl : v.length = m * n := by rw [hv, length_mulVec, h.rows]
    obtain ⟨x, y⟩ := (h.span v hl).2 ⟨a, ha, hv.symm⟩
    rw [← hv, ← unflat_flat hl]
    refine hH' _ rfl rfl (fun j hj => ?_) fun j hj => ?_
    · obtain ⟨b, hb, eb⟩ := x j hj
      exact eb ▸ hP.near b hb
    · obtain ⟨b, hb, eb⟩ := y j hj
      exact eb ▸ hQ.near b hb

theorem perm (hQ : NearBasis n Q F F') {p : List ℕ} (hp : p ~ range n)
    (hH : ∀ v, v.length = n → H v → F ((permMat p).mulVec v)) (hH' : ∀ v, v.length = n → F' ((permMat p).mulVec v) → H' v) :
    NearBasis n ((permMat (argsort p)).mul Q) H H' := by
  have h := OrthoBasis.perm (H := fun v => ∃ a : List 𝕜, a.length = Q.cols ∧ Q.mulVec a = (permMat p).mulVec v) hQ.span hp fun v _ => Iff.rfl
  have hl := length_of_perm_range hp
  refine ⟨h.rows, h.orth, fun v hv hh => (h.span v hv).1 (hQ.complete _ (by simp [hl]) (hH v hv hh)), fun a ha => ?_⟩
  have hv : (((permMat (argsort p)).mul Q).mulVec a).length = n := by rw [length_mulVec, h.rows]
  obtain ⟨b, hb, eb⟩ := (h.span _ hv).2 ⟨a, ha, rfl⟩
  exact hH' _ hv (eb ▸ hQ.near b hb)

end NearBasis

/-! ### `NearFixedBy` -/

theorem NearFixedBy.congr {M D M' D' : Interp 𝕜 → DMat 𝕜} (hM : ∀ I, M I = M' I) (hD : ∀ I, D I = D' I) (v : List 𝕜) :
    NearFixedBy W gens ε M D v ↔ NearFixedBy W gens ε M' D' v := by
  simp only [NearFixedBy, hM, hD]

theorem NearFixedBy.bdiag2 (hg : GenSet.Sized W gens) {m : ℕ} {M D M' D' : Interp 𝕜 → DMat 𝕜} (hM : ∀ I, I.Sized W → (M I).IsSq m)
    (hD : ∀ I, I.Sized W → (D I).IsSq m) {v w : List 𝕜} (hv : v.length = m) (h1 : NearFixedBy W gens ε M D v)
    (h2 : NearFixedBy W gens ε M' D' w) :
    NearFixedBy W gens ε (fun I => DMat.bdiag2 (M I) (M' I)) (fun I => DMat.bdiag2 (D I) (D' I)) (v ++ w) := by
  intro g
  refine ⟨fun x hx => ?_, fun x hx => ?_⟩
  · have s := hM _ (((hg g).1 x hx).only g)
    rw [mulVec_bdiag2 _ _ _ _ (by rw [s.2, hv]), dist2_append (by simp [s.1, hv]), nrm2_append, mul_add]
    exact add_le_add ((h1 g).1 x hx) ((h2 g).1 x hx)
  · have s := hD _ (((hg g).2 x hx).onlyD g)
    rw [mulVec_bdiag2 _ _ _ _ (by rw [s.2, hv]), nrm2_append, nrm2_append, mul_add]
    exact add_le_add ((h1 g).2 x hx) ((h2 g).2 x hx)

theorem kron_one_near {m n : ℕ} {A N : DMat 𝕜} (hA : A.IsSq m) (hr : N.rows = m) (hc : N.cols = n)
    (h : ∀ j < n, dist2 (A.mulVec (N.col j)) (N.col j) ≤ ε ^ 2 * nrm2 (N.col j)) :
    dist2 ((DMat.kron A (DMat.one n)).mulVec N.flat) N.flat ≤ ε ^ 2 * nrm2 N.flat := by
  rw [kron_one_mulVec hA hr hc, dist2_flat (by simp [hA.1, hr]) (by simp), nrm2_flat, Finset.mul_sum, mul_cols]
  refine Finset.sum_le_sum fun j hj => ?_
  have hj := Finset.mem_range.1 hj
  rw [← mulVec_col _ _ (by rw [hA.2, hr]) hj]
  exact h j (by omega)

theorem one_kron_near {m n : ℕ} {A N : DMat 𝕜} (hA : A.IsSq n) (hr : N.rows = m) (hc : N.cols = n)
    (h : ∀ i < m, dist2 (A.mulVec (N.transpose.col i)) (N.transpose.col i) ≤ ε ^ 2 * nrm2 (N.transpose.col i)) :
    dist2 ((DMat.kron (DMat.one m) A).mulVec N.flat) N.flat ≤ ε ^ 2 * nrm2 N.flat := by
  rw [one_kron_mulVec hA hr hc, dist2_flat' (by simp) (by simp [hA.1, hc]), transpose_transpose, dist2_flat (by simp [hA.1, hc]) (by simp),
    nrm2_flat', nrm2_flat, Finset.mul_sum, mul_cols]
  refine Finset.sum_le_sum fun j hj => ?_
  have hj := Finset.mem_range.1 hj
  rw [← mulVec_col _ _ (by rw [hA.2, transpose_rows, hc]) hj]
  exact h j (by rw [transpose_cols] at hj; omega)

theorem kron_one_small {m n : ℕ} {A N : DMat 𝕜} (hA : A.IsSq m) (hr : N.rows = m) (hc : N.cols = n)
    (h : ∀ j < n, nrm2 (A.mulVec (N.col j)) ≤ ε ^ 2 * nrm2 (N.col j)) :
    nrm2 ((DMat.kron A (DMat.one n)).mulVec N.flat) ≤ ε ^ 2 * nrm2 N.flat := by
  rw [kron_one_mulVec hA hr hc, nrm2_flat, nrm2_flat, Finset.mul_sum, mul_cols]
  refine Finset.sum_le_sum fun j hj => ?_
  have hj := Finset.mem_range.1 hj
  rw [← mulVec_col _ _ (by rw [hA.2, hr]) hj]
  exact h j (by omega)

theorem one_kron_small {m n : ℕ} {A N : DMat 𝕜} (hA : A.IsSq n) (hr : N.rows = m) (hc : N.cols = n)
    (h : ∀ i < m, nrm2 (A.mulVec (N.transpose.col i)) ≤ ε ^ 2 * nrm2 (N.transpose.col i)) :
    nrm2 ((DMat.kron (DMat.one m) A).mulVec N.flat) ≤ ε ^ 2 * nrm2 N.flat := by
  rw [one_kron_mulVec hA hr hc, ← nrm2_flat', nrm2_flat, nrm2_flat' N, nrm2_flat, Finset.mul_sum, mul_cols]
  refine Finset.sum_le_sum fun j hj => ?_
  have hj := Finset.mem_range.1 hj
  rw [← mulVec_col _ _ (by rw [hA.2, transpose_rows, hc]) hj]
  exact h j (by rw [transpose_cols] at hj; omega)

/-- Tensor products, when every group acts trivially on one of the legs. -/
theorem NearFixedBy.kron (hg : GenSet.Sized W gens) {m n : ℕ} {M D M' D' : Interp 𝕜 → DMat 𝕜}
    (hM : ∀ I, I.Sized W → (M I).IsSq m) (hD : ∀ I, I.Sized W → (D I).IsSq m)
    (hM' : ∀ I, I.Sized W → (M' I).IsSq n) (hD' : ∀ I, I.Sized W → (D' I).IsSq n)
    (htriv : ∀ g, ((∀ h ∈ (gens g).disc, M (h.only W g) = DMat.one m) ∧ ∀ A ∈ (gens g).lie, D (A.onlyD W g) = DMat.zero m m) ∨
      ((∀ h ∈ (gens g).disc, M' (h.only W g) = DMat.one n) ∧ ∀ A ∈ (gens g).lie, D' (A.onlyD W g) = DMat.zero n n))
    {N : DMat 𝕜} (hr : N.rows = m) (hc : N.cols = n) (h1 : ∀ j < n, NearFixedBy W gens ε M D (N.col j))
    (h2 : ∀ i < m, NearFixedBy W gens ε M' D' (N.transpose.col i)) :
    NearFixedBy W gens ε (fun I => DMat.kron (M I) (M' I)) (fun I => kronsum (D I) (D' I)) N.flat := by
  intro g
  refine ⟨fun x hx => ?_, fun x hx => ?_⟩ <;> beta_reduce
  · have s1 := hM _ (((hg g).1 x hx).only g)
    have s2 := hM' _ (((hg g).1 x hx).only g)
    rcases htriv g with t | t
    · rw [t.1 x hx]
      exact one_kron_near s2 hr hc fun i hi => (h2 i hi g).1 x hx
    · rw [t.1 x hx]
      exact kron_one_near s1 hr hc fun i hi => (h1 i hi g).1 x hx
  · have s1 := hD _ (((hg g).2 x hx).onlyD g)
    have s2 := hD' _ (((hg g).2 x hx).onlyD g)
    rcases htriv g with t | t
    · rw [t.2 x hx, kronsum_zero_left s2]
      exact one_kron_small s2 hr hc fun i hi => (h2 i hi g).2 x hx
    · rw [t.2 x hx, kronsum_zero_right s1]
      exact kron_one_small s1 hr hc fun i hi => (h1 i hi g).2 x hx

theorem permMat_isometry {n : ℕ} {p : List ℕ} (hp : p ~ range n) :
    (permMat (argsort p) : DMat 𝕜).conjTranspose.mul (permMat (argsort p)) = DMat.one (permMat (argsort p) : DMat 𝕜).cols := by
  have ha : argsort p ~ range n := length_of_perm_range hp ▸ argsort_perm p
  rw [conjTranspose_permMat hp, permMat_mul_argsort hp, permMat_cols, length_of_perm_range ha]

theorem argsort_permMat_mulVec {n : ℕ} {p : List ℕ} (hp : p ~ range n) {v : List 𝕜} (hv : v.length = n) :
    (permMat (argsort p) : DMat 𝕜).mulVec ((permMat p).mulVec v) = v := by
  have hl := length_of_perm_range hp
  have hla := length_of_perm_range (hl ▸ argsort_perm p : argsort p ~ range n)
  have i3 : (permMat (argsort p) : DMat 𝕜).mul (permMat p) = DMat.one n :=
    DMat.mul_eq_one_comm ⟨by simp [hl], by simp [hl]⟩ ⟨by simp [hla], by simp [hla]⟩ (permMat_mul_argsort hp)
  rw [← mulVec_mul _ _ _ (by simp [hl, hla]), i3, mulVec_one _ hv]

theorem NearFixedBy.conj (hg : GenSet.Sized W gens) {n : ℕ} {p : List ℕ} (hp : p ~ range n) {M D : Interp 𝕜 → LinOp 𝕜}
    (hM : ∀ I, I.Sized W → (M I).sem.IsSq n) (hD : ∀ I, I.Sized W → (D I).sem.IsSq n) {v : List 𝕜} (hv : v.length = n) :
    NearFixedBy W gens ε (fun I => (conjPerm p (M I)).sem) (fun I => (conjPerm p (D I)).sem) v ↔
      NearFixedBy W gens ε (fun I => (M I).sem) (fun I => (D I).sem) ((permMat p).mulVec v) := by
  have hl := length_of_perm_range hp
  have hla := length_of_perm_range (hl ▸ argsort_perm p : argsort p ~ range n)
  have hv' : ((permMat p).mulVec v).length = n := by simp [hl]
  have e0 : nrm2 ((permMat p).mulVec v) = nrm2 v := by
    conv_rhs => rw [← argsort_permMat_mulVec hp hv]
    rw [nrm2_unitary (permMat_isometry hp) (by simp [hl, hla])]
  simp only [NearFixedBy, conjPerm, LinOp.sem]
  refine forall_congr' fun g => and_congr (forall₂_congr fun h hh => ?_) (forall₂_congr fun h hh => ?_)
  · have s := hM _ (((hg g).1 h hh).only g)
    have e : dist2 ((((permMat (argsort p)).mul (M (h.only W g)).sem).mul (permMat p)).mulVec v) v =
        dist2 ((M (h.only W g)).sem.mulVec ((permMat p).mulVec v)) ((permMat p).mulVec v) := by
      rw [mulVec_mul _ _ _ (by simp [s.2, hl]), mulVec_mul _ _ _ (by simp [s.1, hla])]
      have := dist2_unitary (permMat_isometry hp) (x := (M (h.only W g)).sem.mulVec ((permMat p).mulVec v)) (y := (permMat p).mulVec v)
        (by simp [s.1, hla])
      rwa [argsort_permMat_mulVec hp hv] at this
    rw [e, e0]
  · have s := hD _ (((hg g).2 h hh).onlyD g)
    have e : nrm2 ((((permMat (argsort p)).mul (D (h.onlyD W g)).sem).mul (permMat p)).mulVec v) =
        nrm2 ((D (h.onlyD W g)).sem.mulVec ((permMat p).mulVec v)) := by
      rw [mulVec_mul _ _ _ (by simp [s.2, hl]), mulVec_mul _ _ _ (by simp [s.1, hla]), nrm2_unitary (permMat_isometry hp) (by simp [s.1, hla])]
    rw [e, e0]

end Verif
