import Verif.Lemmas.LinApply

namespace Verif
open List

namespace Act
variable {R : Type} [CommRing R] {a b : Act R} {A B : DMat R}
open NdArr DMat

/-! ### Kronecker sums -/

theorem kronsumL_sq (L : List (DMat R)) (hs : ∀ A ∈ L, A.rows = A.cols) : (kronsumL L).IsSq (L.map DMat.cols).prod := by
  induction L with
  | nil => exact ⟨rfl, rfl⟩
  | cons A L ih =>
    have := ih fun B hB => hs B (by simp [hB])
    refine ⟨?_, ?_⟩
    · show A.rows * (kronsumL L).rows = _
      rw [this.1, hs A (by simp)]; simp
    · show A.cols * (kronsumL L).rows = _
      rw [this.1]; simp

theorem add?_ofFn (s : List ℕ) (f g : List ℕ → R) :
    (NdArr.ofFn s f).add? (NdArr.ofFn s g) = .ok (NdArr.ofFn s fun idx => f idx + g idx) := by
  unfold add?
  rw [if_pos (show (NdArr.ofFn s f).shape = (NdArr.ofFn s g).shape from rfl)]
  simp only [NdArr.ofFn, zipWith_map]
  congr 2
  rw [zipWith_self]

theorem sum_indices_one {s x : List ℕ} (hx : x ∈ indices s) (f : List ℕ → R) :
    ((indices s).map fun j => (if ravel s x = ravel s j then 1 else 0) * f j).sum = f x := by
  have : ((indices s).map fun j => (if ravel s x = ravel s j then 1 else 0) * f j) =
      (indices s).map fun j => if j = x then f x else 0 := by
    apply map_congr_left
    intro j hj
    by_cases h : j = x
    · subst h; simp
    · rw [if_neg fun h' => h (ravel_inj hj hx h'.symm), if_neg h, zero_mul]
  rw [this]
  have h2 : ∀ l : List (List ℕ), l.Nodup → x ∈ l → (l.map fun j => if j = x then f x else 0).sum = f x := by
    intro l hl hm
    induction l with
    | nil => simp at hm
    | cons y l ih =>
      rw [nodup_cons] at hl
      rw [map_cons, sum_cons]
      by_cases hy : y = x
      · subst hy
        rw [if_pos rfl]
        have : (l.map fun j => if j = y then f y else 0) = l.map fun _ => 0 :=
          map_congr_left fun j hj => if_neg fun (e : j = y) => hl.1 (e ▸ hj)
        rw [this]; simp
      · rw [if_neg hy, zero_add]
        exact ih hl.2 (by rcases mem_cons.1 hm with h | h; exacts [absurd h.symm hy, h])
  exact h2 _ (nodup_indices s) hx

/-- The loop adds up the Kronecker sum. -/
theorem kronsumLoop_ofFn {l : List (Act R)} {L : List (DMat R)} (h : IsL l L) (hc : ∀ A ∈ L, A.cols ≠ 0 ∧ A.rows = A.cols) :
    ∀ (pre post : List ℕ) (f o : List ℕ → R),
    ∃ g, kronsumLoop (NdArr.ofFn (pre ++ (L.map DMat.cols ++ post)) f) l pre.length
        (NdArr.ofFn (pre ++ (L.map DMat.cols ++ post)) o) = .ok (NdArr.ofFn (pre ++ (L.map DMat.cols ++ post)) g) ∧
      ∀ u ∈ indices pre, ∀ x ∈ indices (L.map DMat.cols), ∀ w ∈ indices post,
        g (u ++ (x ++ w)) = o (u ++ (x ++ w)) + ((indices (L.map DMat.cols)).map fun j =>
          (kronsumL L).e (ravel (L.map DMat.cols) x) (ravel (L.map DMat.cols) j) * f (u ++ (j ++ w))).sum := by
  induction h with
  | nil =>
    intro pre post f o
    refine ⟨o, rfl, ?_⟩
    intro u _ x hx w _
    simp [indices, kronsumL, ravel, zero_e]
  | @cons a A l L h1 h2 ih =>
    intro pre post f o
    have hA := hc A (by simp)
    have hL : ∀ B ∈ L, B.cols ≠ 0 ∧ B.rows = B.cols := fun B hB => hc B (by simp [hB])
    have hsq := kronsumL_sq L fun B hB => (hL B hB).2
    obtain ⟨g1, e1, hg1⟩ := kronStep_ofFn h1 hA.1 pre (L.map DMat.cols ++ post) f
    rw [hA.2] at e1 hg1
    obtain ⟨g2, e2, hg2⟩ := ih hL (pre ++ [A.cols]) post f fun idx => o idx + g1 idx
    refine ⟨g2, ?_, ?_⟩
    · simp only [map_cons, cons_append, kronsumLoop]
      rw [e1]
      show (do
        let out ← (NdArr.ofFn (pre ++ A.cols :: (L.map DMat.cols ++ post)) o).add? (NdArr.ofFn (pre ++ A.cols :: (L.map DMat.cols ++ post)) g1)
        kronsumLoop _ l (pre.length + 1) out) = _
      rw [add?_ofFn]
      show kronsumLoop _ l (pre.length + 1) (NdArr.ofFn (pre ++ A.cols :: (L.map DMat.cols ++ post)) fun idx => o idx + g1 idx) = _
      simpa using e2
    · intro u hu x hx w hw
      simp only [map_cons, mem_indices] at hx
      obtain ⟨x0, x', hx0, hx', rfl⟩ := forall₂_cons_right_iff.1 hx
      rw [← mem_indices] at hx'
      have hu' : u ++ [x0] ∈ indices (pre ++ [A.cols]) := by
        rw [mem_indices] at hu ⊢
        exact rel_append hu (.cons hx0 .nil)
      have := hg2 _ hu' x' hx' w hw
      simp only [append_assoc, cons_append, nil_append] at this
      simp only [cons_append]
      rw [this, map_cons, sum_indices_cons, add_assoc]
      congr 1
      have e3 : g1 (u ++ x0 :: (x' ++ w)) = ∑ j0 ∈ Finset.range A.cols, A.e x0 j0 * f (u ++ j0 :: (x' ++ w)) := by
        apply hg1 u hu x0 hx0
        rw [mem_indices] at hx' hw ⊢
        exact rel_append hx' hw
      have e4 : ∀ j0 < A.cols, ∀ j ∈ indices (L.map DMat.cols),
          (kronsumL (A :: L)).e (ravel (A.cols :: L.map DMat.cols) (x0 :: x')) (ravel (A.cols :: L.map DMat.cols) (j0 :: j)) =
            A.e x0 j0 * (if ravel (L.map DMat.cols) x' = ravel (L.map DMat.cols) j then 1 else 0) +
            (if x0 = j0 then 1 else 0) * (kronsumL L).e (ravel (L.map DMat.cols) x') (ravel (L.map DMat.cols) j) := by
        intro j0 hj0 j hj
        exact kronsum_e (A := A) (B := kronsumL L) ⟨hA.2, rfl⟩ hsq hx0 (ravel_lt hx') hj0 (ravel_lt hj)
      have e5 : ∀ j0 ∈ Finset.range A.cols, ((indices (L.map DMat.cols)).map fun j => (kronsumL (A :: L)).e
            (ravel (A.cols :: L.map DMat.cols) (x0 :: x')) (ravel (A.cols :: L.map DMat.cols) (j0 :: j)) *
              f (u ++ j0 :: (j ++ w))).sum = A.e x0 j0 * f (u ++ j0 :: (x' ++ w)) +
          (if x0 = j0 then 1 else 0) * ((indices (L.map DMat.cols)).map fun j =>
            (kronsumL L).e (ravel (L.map DMat.cols) x') (ravel (L.map DMat.cols) j) * f (u ++ j0 :: (j ++ w))).sum := by
        intro j0 hj0
        have : ((indices (L.map DMat.cols)).map fun j => (kronsumL (A :: L)).e
            (ravel (A.cols :: L.map DMat.cols) (x0 :: x')) (ravel (A.cols :: L.map DMat.cols) (j0 :: j)) *
              f (u ++ j0 :: (j ++ w))) = (indices (L.map DMat.cols)).map fun j =>
            (if ravel (L.map DMat.cols) x' = ravel (L.map DMat.cols) j then 1 else 0) * (A.e x0 j0 * f (u ++ j0 :: (j ++ w))) +
            (if x0 = j0 then 1 else 0) * ((kronsumL L).e (ravel (L.map DMat.cols) x') (ravel (L.map DMat.cols) j) * f (u ++ j0 :: (j ++ w))) := by
          apply map_congr_left
          intro j hj
          rw [e4 j0 (Finset.mem_range.1 hj0) j hj]
          ring
        rw [this, sum_map_add, sum_indices_one hx' (fun j => A.e x0 j0 * f (u ++ j0 :: (j ++ w))), sum_map_mul_left]
      simp only [cons_append]
      rw [Finset.sum_congr rfl e5, Finset.sum_add_distrib, e3]
      congr 1
      rw [Finset.sum_eq_single x0]
      · simp
      · intro j0 _ hne; rw [if_neg (Ne.symm hne), zero_mul]
      · intro hn; exact absurd (Finset.mem_range.2 hx0) hn

theorem kronsumMM_eq {l : List (Act R)} {L : List (DMat R)} (h : IsL l L) (hc : ∀ A ∈ L, A.cols ≠ 0 ∧ A.rows = A.cols) (X : DMat R)
    (hX : X.rows = (kronsumL L).cols) (t : List ℕ) : kronsumMM l ⟨t, X.flat⟩ = .ok ((kronsumL L).mul X).toArr := by
  have hsq := kronsumL_sq L fun B hB => (hc B hB).2
  rw [hsq.2] at hX
  have hrc : L.map DMat.rows = L.map DMat.cols := map_congr_left fun B hB => (hc B hB).2
  unfold kronsumMM
  rw [h.cols, reshapeTail_mat X _ (prod_ne_zero_of fun B hB => (hc B hB).1) hX t]
  obtain ⟨f, hf⟩ : ∃ f : List ℕ → R, f = fun idx => X.e (ravel (L.map DMat.cols) idx.dropLast) (idx.getLastD 0) := ⟨_, rfl⟩
  rw [← hf]
  obtain ⟨g, e, hg⟩ := kronsumLoop_ofFn h hc [] [X.cols] f fun idx => 0 * f idx
  simp only [nil_append, length_nil] at e
  have h0 : (NdArr.ofFn (L.map DMat.cols ++ [X.cols]) f).scale 0 = NdArr.ofFn (L.map DMat.cols ++ [X.cols]) fun idx => 0 * f idx := by
    simp only [scale, NdArr.ofFn, map_map]; rfl
  show (do
    let out ← kronsumLoop (NdArr.ofFn (L.map DMat.cols ++ [X.cols]) f) l 0 ((NdArr.ofFn (L.map DMat.cols ++ [X.cols]) f).scale 0)
    out.reshape? [(l.map Act.rows).prod, (L.map DMat.cols ++ [X.cols]).getLastD 0]) = _
  rw [h0, e]
  show (NdArr.ofFn (L.map DMat.cols ++ [X.cols]) g).reshape? [(l.map Act.rows).prod, (L.map DMat.cols ++ [X.cols]).getLastD 0] = _
  have hd : (NdArr.ofFn (L.map DMat.cols ++ [X.cols]) g).data = ((kronsumL L).mul X).flat := by
    refine data_ofFn_rows ((kronsumL L).mul X) (L.map DMat.cols) hsq.1 g ?_
    intro x hx j hj
    have := hg [] (by simp [indices]) x hx [j] (by simpa [mem_indices] using hj)
    simp only [nil_append] at this
    rw [this, mul_e (A := kronsumL L) (B := X) (by rw [hsq.1]; exact ravel_lt hx) hj, hsq.2,
      ← sum_indices_ravel (L.map DMat.cols)]
    simp [hf]
  unfold reshape?
  rw [hd, if_pos (by rw [length_flat, mul_rows, mul_cols, hsq.1, h.rows, hrc]; simp)]
  simp only [NdArr.reshape, hd, toArr, mul_rows, mul_cols, hsq.1, h.rows, hrc]
  simp

theorem kronsum_is {l : List (Act R)} {L : List (DMat R)} (h : IsL l L) (hc : ∀ A ∈ L, A.cols ≠ 0 ∧ A.rows = A.cols) :
    (kronsum l).Is (kronsumL L) where
  rows := by
    rw [(kronsumL_sq L fun B hB => (hc B hB).2).1, ← map_congr_left fun B hB => (hc B hB).2, ← h.rows]; rfl
  cols := by rw [(kronsumL_sq L fun B hB => (hc B hB).2).2, ← h.cols]; rfl
  mm X hX := kronsumMM_eq h hc X hX _
  mv v hv s _ := by
    have := kronsumMM_eq h hc (ofVec v) hv s
    rw [ofVec_flat] at this
    show ∃ t, (kronsumMM l ⟨s, v⟩).map (fun y => y.reshape [y.data.length]) = _
    rw [this]
    exact ⟨_, by rw [mulVec_eq_flat]; rfl⟩

end Act
end Verif
