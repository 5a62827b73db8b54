import Verif.Spec.LinApply
import Verif.Lemmas.NpAxes
import Verif.Lemmas.Kron
import Verif.Lemmas.MulVec
import Verif.Lemmas.DenseRing
import Verif.Lemmas.DRho
import Verif.Lemmas.Conj

namespace Verif
open List

namespace DMat
variable {R : Type} [CommRing R]

theorem toArr_eq (A : DMat R) : A.toArr = NdArr.ofFn [A.rows, A.cols] fun idx => A.e (idx.getD 0 0) (idx.getD 1 0) := by
  simp only [toArr, NdArr.ofFn, flat, indices, map_flatMap, map_map]
  congr 1
  apply flatMap_congr
  intro i _
  rw [map_eq_flatMap]
  simp

theorem toArr_get (A : DMat R) {i j : ℕ} (hi : i < A.rows) (hj : j < A.cols) : A.toArr.get [i, j] = A.e i j := by
  rw [toArr_eq, NdArr.get_ofFn]
  · simp
  · simp [mem_indices, hi, hj]

theorem mul_toArr (A X : DMat R) : (A.mul X).toArr =
    NdArr.ofFn [A.rows, X.cols] fun idx => ∑ j ∈ Finset.range A.cols, A.e (idx.getD 0 0) j * X.e j (idx.getD 1 0) := by
  rw [toArr_eq]
  apply NdArr.ofFn_congr
  intro idx h
  have h0 := lt_of_mem_indices h (i := 0) (by simp)
  have h1 := lt_of_mem_indices h (i := 1) (by simp)
  exact mul_e (A := A) (B := X) h0 h1

/-- A one-column matrix times: the flat data of the product is the matrix-vector product. -/
theorem flat_mul_col (A X : DMat R) (h : X.cols = 1) : (A.mul X).flat = A.mulVec X.flat := by
  rw [flat, mulVec]
  simp only [mul_rows, mul_cols, h, range_one, map_cons, map_nil, ← map_eq_flatMap]
  apply map_congr_left
  intro i hi
  rw [mul_e (mem_range.1 hi) (by omega)]
  apply Finset.sum_congr rfl
  intro j hj
  congr 1
  have hx : X.flat = (range X.rows).map fun j => X.e j 0 := by
    rw [flat]; simp only [h, range_one, map_cons, map_nil, ← map_eq_flatMap]
  rw [hx]
  by_cases hj' : j < X.rows
  · rw [getD_eq_getElem _ _ (by simpa using hj')]; simp
  · rw [X.out _ _ (by omega), getD_eq_default _ _ (by simpa using hj')]

/-- The one-column matrix with given entries. -/
def ofVec (v : List R) : DMat R := of v.length 1 fun i _ => v.getD i 0

theorem ofVec_flat (v : List R) : (ofVec v).flat = v := by
  have hx : (ofVec v).flat = (range v.length).map fun j => v.getD j 0 := by
    rw [flat]
    simp only [ofVec, of_rows, of_cols, range_one, map_cons, map_nil, ← map_eq_flatMap]
    exact map_congr_left fun i hi => of_e (mem_range.1 hi) (by omega)
  rw [hx]
  apply vec_ext (by simp)
  intro i hi
  simp only [length_map, length_range] at hi
  rw [getD_eq_getElem _ _ (by simpa using hi)]
  simp

end DMat

namespace Act
variable {R : Type} [CommRing R]
open NdArr DMat

/-- The object's methods compute with the matrix `A`. -/
structure Is (a : Act R) (A : DMat R) : Prop where
  rows : a.rows = A.rows
  cols : a.cols = A.cols
  mm : ∀ X : DMat R, X.rows = A.cols → a.mm X.toArr = .ok (A.mul X).toArr
  mv : ∀ v : List R, v.length = A.cols → ∀ s, s = [A.cols] ∨ s = [A.cols, 1] → ∃ t, a.mv ⟨s, v⟩ = .ok ⟨t, A.mulVec v⟩

variable {a b : Act R} {A B : DMat R}

theorem Is.matvec1 (h : a.Is A) (v : List R) (hv : v.length = A.cols) : a.matvec ⟨[A.cols], v⟩ = .ok ⟨[A.rows], A.mulVec v⟩ := by
  obtain ⟨t, ht⟩ := h.mv v hv _ (Or.inl rfl)
  have e : ∀ y : NdArr R, y = ⟨t, A.mulVec v⟩ → y.reshape? [a.rows] = .ok ⟨[A.rows], A.mulVec v⟩ := by
    rintro y rfl
    simp [reshape?, NdArr.reshape, h.rows]
  unfold matvec
  rw [if_neg (by simp [h.cols]), ht]
  exact e _ rfl

theorem Is.matvec2 (h : a.Is A) (v : List R) (hv : v.length = A.cols) : a.matvec ⟨[A.cols, 1], v⟩ = .ok ⟨[A.rows, 1], A.mulVec v⟩ := by
  obtain ⟨t, ht⟩ := h.mv v hv _ (Or.inr rfl)
  have e : ∀ y : NdArr R, y = ⟨t, A.mulVec v⟩ → y.reshape? [a.rows, 1] = .ok ⟨[A.rows, 1], A.mulVec v⟩ := by
    rintro y rfl
    simp [reshape?, NdArr.reshape, h.rows]
  unfold matvec
  rw [if_neg (by simp [h.cols]), ht]
  exact e _ rfl

theorem Is.matmat (h : a.Is A) (X : DMat R) (hX : X.rows = A.cols) : a.matmat X.toArr = .ok (A.mul X).toArr := by
  unfold Act.matmat
  rw [if_neg (by simp [toArr]), if_neg (by simp [toArr, h.cols, hX])]
  exact h.mm X hX

theorem Is.dot_vec (h : a.Is A) (v : List R) (hv : v.length = A.cols) : a.dot ⟨[A.cols], v⟩ = .ok ⟨[A.rows], A.mulVec v⟩ := by
  unfold Act.dot
  rw [if_pos (by simp)]
  exact h.matvec1 v hv

theorem Is.dot (h : a.Is A) (X : DMat R) (hX : X.rows = A.cols) : a.dot X.toArr = .ok (A.mul X).toArr := by
  unfold Act.dot
  by_cases hc : X.cols = 1
  · rw [if_pos (by simp [toArr, hc])]
    have := h.matvec2 X.flat (by rw [length_flat, hc, hX, mul_one])
    rw [← flat_mul_col A X hc] at this
    rw [toArr, toArr, mul_rows, mul_cols, hc, hX]
    exact this
  · rw [if_neg (by simp [toArr, hc]), if_pos (by simp [toArr])]
    exact h.matmat X hX

/-- It is enough to check `_matmat`, and `_matvec` on columns, up to shape. -/
theorem Is.of_mm (hr : a.rows = A.rows) (hc : a.cols = A.cols)
    (mm : ∀ X : DMat R, X.rows = A.cols → a.mm X.toArr = .ok (A.mul X).toArr)
    (mv : ∀ v : List R, v.length = A.cols → ∀ s, s = [A.cols] ∨ s = [A.cols, 1] → ∃ t, a.mv ⟨s, v⟩ = .ok ⟨t, A.mulVec v⟩) : a.Is A :=
  ⟨hr, hc, mm, mv⟩

theorem mulVec_eq_flat (A : DMat R) (v : List R) : A.mulVec v = (A.mul (ofVec v)).flat := by
  rw [flat_mul_col A (ofVec v) rfl, ofVec_flat]

theorem toArr_ofVec (v : List R) : (ofVec v).toArr = ⟨[v.length, 1], v⟩ := by
  rw [toArr, ofVec_flat]; rfl

/-- For classes whose `_matvec` and `_matmat` are the same function, the `(N,1)` case is a special case. -/
theorem Is.same (hr : a.rows = A.rows) (hc : a.cols = A.cols) (hs : a.mv = a.mm)
    (mm : ∀ X : DMat R, X.rows = A.cols → a.mm X.toArr = .ok (A.mul X).toArr)
    (mv : ∀ v : List R, v.length = A.cols → ∃ t, a.mm ⟨[A.cols], v⟩ = .ok ⟨t, A.mulVec v⟩) : a.Is A where
  rows := hr
  cols := hc
  mm := mm
  mv v hv s hs' := by
    rw [hs]
    rcases hs' with rfl | rfl
    · exact mv v hv
    · have := mm (ofVec v) hv
      rw [toArr_ofVec, hv] at this
      exact ⟨_, by rw [this, toArr, mulVec_eq_flat]⟩

theorem ofMat_is (A : DMat R) : (ofMat A).Is A := by
  refine Is.same rfl rfl rfl (fun X hX => ?_) fun v hv => ⟨[A.rows], by simp [ofMat, matmul]⟩
  show matmul A X.toArr = _
  rw [mul_toArr]
  have : X.toArr.shape = [X.rows, X.cols] := rfl
  simp only [matmul, this, hX, if_true]
  congr 1
  apply NdArr.ofFn_congr
  intro idx h
  apply Finset.sum_congr rfl
  intro j hj
  have h1 := lt_of_mem_indices h (i := 1) (by simp)
  rw [toArr_get X (by simpa [hX] using hj) h1]

theorem eye_is (n : ℕ) : (eye n : Act R).Is (one n) := by
  refine Is.same rfl rfl rfl (fun X hX => ?_) fun v hv => ⟨[n], ?_⟩
  · rw [one_mul' X (n := n) hX]; rfl
  · rw [mulVec_one (n := n) v hv]; rfl

/-! ### Kronecker products -/

omit [CommRing R] in
theorem insertIdx_append_length {α : Type} (u w : List α) (x : α) : (u ++ w).insertIdx u.length x = u ++ x :: w := by
  induction u with
  | nil => rfl
  | cons y u ih => simpa using ih

theorem data_ofFn_cons (n : ℕ) (t : List ℕ) (g : List ℕ → R) :
    (NdArr.ofFn (n :: t) g).data = (of n t.prod fun i b => g (i :: (indices t).getD b [])).flat := by
  simp only [NdArr.ofFn, indices, flat, of_rows, of_cols, map_flatMap, map_map]
  apply flatMap_congr
  intro i hi
  have : indices t = (range t.prod).map fun b => (indices t).getD b [] := by
    apply List.ext_getElem
    · simp [length_indices]
    · intro k h1 h2; simp [getElem?_eq_getElem h1]
  conv_lhs => rw [this]
  rw [map_map]
  apply map_congr_left
  intro b hb
  exact (of_e (R := R) (f := fun i b => g (i :: (indices t).getD b [])) (mem_range.1 hi) (mem_range.1 hb)).symm

/-- One pass of the loop applies the matrix along the axis. -/
theorem kronStep_ofFn (h : a.Is A) (hc : A.cols ≠ 0) (pre post : List ℕ) (f : List ℕ → R) :
    ∃ g, kronStep a pre.length (NdArr.ofFn (pre ++ A.cols :: post) f) = .ok (NdArr.ofFn (pre ++ A.rows :: post) g) ∧
      ∀ u ∈ indices pre, ∀ x < A.rows, ∀ w ∈ indices post,
        g (u ++ x :: w) = ∑ j ∈ Finset.range A.cols, A.e x j * f (u ++ j :: w) := by
  have hi : pre.length < (pre ++ A.cols :: post).length := by simp
  have he : (pre ++ A.cols :: post).eraseIdx pre.length = pre ++ post := by
    rw [eraseIdx_append_of_length_le (le_refl _)]; simp
  have hg : (pre ++ A.cols :: post).getD pre.length 0 = A.cols := by simp
  have hfront := NdArr.moveaxis_front_ofFn f hi
  rw [he, hg] at hfront
  obtain ⟨X, hX⟩ : ∃ X : DMat R, X = of A.cols (pre ++ post).prod fun i b =>
    (fun idx => f (idx.tail.insertIdx pre.length (idx.headD 0))) (i :: (indices (pre ++ post)).getD b []) := ⟨_, rfl⟩
  have hXr : X.rows = A.cols := by rw [hX]; rfl
  have hXc : X.cols = (pre ++ post).prod := by rw [hX]; rfl
  have hdata := data_ofFn_cons (R := R) A.cols (pre ++ post) fun idx => f (idx.tail.insertIdx pre.length (idx.headD 0))
  rw [← hX] at hdata
  have hresh : (NdArr.ofFn (A.cols :: (pre ++ post)) fun idx => f (idx.tail.insertIdx pre.length (idx.headD 0))).reshapeTail [a.cols]
      = .ok X.toArr := by
    unfold reshapeTail
    have hl : (NdArr.ofFn (A.cols :: (pre ++ post)) fun idx => f (idx.tail.insertIdx pre.length (idx.headD 0))).data.length
        = A.cols * (pre ++ post).prod := by rw [hdata, length_flat, hXr, hXc]
    rw [hl, h.cols]
    simp only [prod_cons, prod_nil, mul_one]
    rw [if_neg (by simp [hc]), Nat.mul_div_cancel_left _ (Nat.pos_of_ne_zero hc)]
    simp only [NdArr.reshape, hdata, toArr, hXr, hXc]
    rfl
  obtain ⟨G, hG⟩ : ∃ G : List ℕ → R, G = fun idx => ∑ j ∈ Finset.range A.cols, A.e (idx.headD 0) j *
    f (idx.tail.insertIdx pre.length j) := ⟨_, rfl⟩
  have hout : (A.mul X).flat = (NdArr.ofFn (A.rows :: (pre ++ post)) G).data := by
    rw [data_ofFn_cons]
    congr 1
    refine ext rfl hXc fun i b hi hb => ?_
    rw [mul_e (A := A) (B := X) hi hb]
    have hb' : b < (pre ++ post).prod := by rw [← hXc]; exact hb
    refine Eq.trans ?_ (of_e (m := A.rows) (n := (pre ++ post).prod) hi hb').symm
    rw [hG]
    apply Finset.sum_congr rfl
    intro j hj
    congr 1
    rw [hX]
    exact of_e (Finset.mem_range.1 hj) hb'
  refine ⟨fun idx => G (idx.getD pre.length 0 :: idx.eraseIdx pre.length), ?_, ?_⟩
  · unfold kronStep
    rw [hfront]
    show (do
      let x ← (NdArr.ofFn (A.cols :: (pre ++ post)) fun idx => f (idx.tail.insertIdx pre.length (idx.headD 0))).reshapeTail [a.cols]
      let y ← a.dot x
      let z ← y.reshape? (a.rows :: (pre ++ post))
      Except.ok (z.moveaxis 0 pre.length)) = _
    rw [hresh]
    show (do
      let y ← a.dot X.toArr
      let z ← y.reshape? (a.rows :: (pre ++ post))
      Except.ok (z.moveaxis 0 pre.length)) = _
    rw [h.dot X hXr]
    have hz : (A.mul X).toArr.reshape? (a.rows :: (pre ++ post)) = .ok (NdArr.ofFn (A.rows :: (pre ++ post)) G) := by
      unfold reshape?
      rw [if_pos]
      · simp only [NdArr.reshape, toArr, hout, h.rows]; rfl
      · show (A.mul X).flat.length = _
        rw [length_flat, mul_rows, mul_cols, hXc, h.rows, prod_cons]
    show (do
      let z ← (A.mul X).toArr.reshape? (a.rows :: (pre ++ post))
      Except.ok (z.moveaxis 0 pre.length)) = _
    rw [hz]
    show Except.ok ((NdArr.ofFn (A.rows :: (pre ++ post)) G).moveaxis 0 pre.length) = _
    rw [moveaxis_back_ofFn G (by simp)]
    congr 2
    rw [insertIdx_append_length]
  · intro u hu x hx w hw
    have hl := length_of_mem_indices hu
    rw [hG]
    have e1 : (u ++ x :: w).getD pre.length 0 = x := by rw [← hl]; simp
    have e2 : (u ++ x :: w).eraseIdx pre.length = u ++ w := by
      rw [← hl, eraseIdx_append_of_length_le (le_refl _)]; simp
    beta_reduce
    rw [e1, e2]
    apply Finset.sum_congr rfl
    intro j _
    congr 2
    show (u ++ w).insertIdx pre.length j = _
    rw [← hl, insertIdx_append_length]

/-- Corresponding lists of objects and matrices. -/
abbrev IsL (l : List (Act R)) (L : List (DMat R)) : Prop := Forall₂ Is l L

theorem IsL.rows {l : List (Act R)} {L : List (DMat R)} (h : IsL l L) : l.map Act.rows = L.map DMat.rows := by
  induction h with
  | nil => rfl
  | cons h1 _ ih => simp [h1.rows, ih]

theorem IsL.cols {l : List (Act R)} {L : List (DMat R)} (h : IsL l L) : l.map Act.cols = L.map DMat.cols := by
  induction h with
  | nil => rfl
  | cons h1 _ ih => simp [h1.cols, ih]

theorem kronL_rows_prod (L : List (DMat R)) : (kronL L).rows = (L.map DMat.rows).prod := by
  induction L with
  | nil => rfl
  | cons A L ih => simp [kronL, ih]

theorem kronL_cols_prod (L : List (DMat R)) : (kronL L).cols = (L.map DMat.cols).prod := by
  induction L with
  | nil => rfl
  | cons A L ih => simp [kronL, ih]

theorem sum_map_range (n : ℕ) (f : ℕ → R) : ((range n).map f).sum = ∑ j ∈ Finset.range n, f j := by
  induction n with
  | zero => simp
  | succ n ih => rw [range_succ, map_append, sum_append, ih, Finset.sum_range_succ]; simp

theorem sum_indices_cons (n : ℕ) (t : List ℕ) (f : List ℕ → R) :
    ((indices (n :: t)).map f).sum = ∑ j ∈ Finset.range n, ((indices t).map fun u => f (j :: u)).sum := by
  rw [← sum_map_range, indices, map_flatMap, flatMap_def, sum_flatten, map_map]
  simp only [Function.comp_def, map_map]

theorem sum_finset_comm {ι : Type} (l : List ι) (s : Finset ℕ) (f : ι → ℕ → R) :
    (l.map fun x => ∑ j ∈ s, f x j).sum = ∑ j ∈ s, (l.map fun x => f x j).sum := by
  induction l with
  | nil => simp
  | cons x l ih => simp [ih, Finset.sum_add_distrib]

/-- The loop applies the Kronecker product. -/
theorem kronLoop_ofFn {l : List (Act R)} {L : List (DMat R)} (h : IsL l L) (hc : ∀ A ∈ L, A.cols ≠ 0) :
    ∀ (pre post : List ℕ) (f : List ℕ → R),
    ∃ g, kronLoop l pre.length (NdArr.ofFn (pre ++ (L.map DMat.cols ++ post)) f)
        = .ok (NdArr.ofFn (pre ++ (L.map DMat.rows ++ post)) g) ∧
      ∀ u ∈ indices pre, ∀ x ∈ indices (L.map DMat.rows), ∀ w ∈ indices post,
        g (u ++ (x ++ w)) = ((indices (L.map DMat.cols)).map fun j =>
          (kronL L).e (ravel (L.map DMat.rows) x) (ravel (L.map DMat.cols) j) * f (u ++ (j ++ w))).sum := by
  induction h with
  | nil =>
    intro pre post f
    refine ⟨f, rfl, ?_⟩
    intro u _ x hx w _
    simp only [map_nil, indices, mem_singleton] at hx
    subst hx
    simp [indices, kronL, ravel, one_e (R := R) (n := 1) (i := 0) (j := 0)]
  | @cons a A l L h1 h2 ih =>
    intro pre post f
    obtain ⟨g1, e1, hg1⟩ := kronStep_ofFn h1 (hc A (by simp)) pre (L.map DMat.cols ++ post) f
    obtain ⟨g2, e2, hg2⟩ := ih (fun B hB => hc B (by simp [hB])) (pre ++ [A.rows]) post g1
    refine ⟨g2, ?_, ?_⟩
    · simp only [map_cons, cons_append, kronLoop]
      rw [e1]
      show kronLoop l (pre.length + 1) (NdArr.ofFn (pre ++ A.rows :: (L.map DMat.cols ++ post)) g1) = _
      simpa using e2
    · intro u hu x hx w hw
      simp only [map_cons, mem_indices] at hx
      obtain ⟨x0, x', hx0, hx', rfl⟩ := forall₂_cons_right_iff.1 hx
      rw [← mem_indices] at hx'
      have hu' : u ++ [x0] ∈ indices (pre ++ [A.rows]) := by
        rw [mem_indices] at hu ⊢
        exact rel_append hu (.cons hx0 .nil)
      have := hg2 _ hu' x' hx' w hw
      simp only [append_assoc, cons_append, nil_append] at this
      simp only [cons_append]
      rw [this, map_cons, map_cons, sum_indices_cons, Finset.sum_congr rfl fun j0 _ => rfl]
      have e3 : ∀ j ∈ indices (L.map DMat.cols), g1 (u ++ x0 :: (j ++ w)) =
          ∑ j0 ∈ Finset.range A.cols, A.e x0 j0 * f (u ++ j0 :: (j ++ w)) := by
        intro j hj
        apply hg1 u hu x0 hx0
        rw [mem_indices] at hj hw ⊢
        exact rel_append hj hw
      have e4 : ∀ j0 < A.cols, ∀ j ∈ indices (L.map DMat.cols),
          (kronL (A :: L)).e (ravel (A.rows :: L.map DMat.rows) (x0 :: x')) (ravel (A.cols :: L.map DMat.cols) (j0 :: j)) =
            A.e x0 j0 * (kronL L).e (ravel (L.map DMat.rows) x') (ravel (L.map DMat.cols) j) := by
        intro j0 hj0 j hj
        have := kron_e (A := A) (B := kronL L) (i := x0) (j := j0) (i' := ravel (L.map DMat.rows) x')
          (j' := ravel (L.map DMat.cols) j) hx0 hj0 (by rw [kronL_rows_prod]; exact ravel_lt hx')
          (by rw [kronL_cols_prod]; exact ravel_lt hj)
        rw [kronL_rows_prod, kronL_cols_prod] at this
        exact this
      have e5 : ((indices (L.map DMat.cols)).map fun j =>
          (kronL L).e (ravel (L.map DMat.rows) x') (ravel (L.map DMat.cols) j) * g1 (u ++ x0 :: (j ++ w))).sum =
          ((indices (L.map DMat.cols)).map fun j => ∑ j0 ∈ Finset.range A.cols, (kronL (A :: L)).e
            (ravel (A.rows :: L.map DMat.rows) (x0 :: x')) (ravel (A.cols :: L.map DMat.cols) (j0 :: j)) *
              f (u ++ j0 :: (j ++ w))).sum := by
        congr 1
        apply map_congr_left
        intro j hj
        rw [e3 j hj, Finset.mul_sum]
        apply Finset.sum_congr rfl
        intro j0 hj0
        rw [e4 j0 (Finset.mem_range.1 hj0) j hj]
        ring
      rw [e5]
      exact sum_finset_comm _ _ _

/-- The data of an array whose leading axes enumerate the rows of a matrix. -/
theorem data_ofFn_rows (Y : DMat R) (s : List ℕ) (hY : Y.rows = s.prod) (g : List ℕ → R)
    (h : ∀ x ∈ indices s, ∀ j < Y.cols, g (x ++ [j]) = Y.e (ravel s x) j) :
    (NdArr.ofFn (s ++ [Y.cols]) g).data = Y.flat := by
  have e : Y.flat = (indices s).flatMap fun x => (range Y.cols).map fun j => Y.e (ravel s x) j := by
    rw [flat, hY, ← map_ravel_indices, flatMap_map]
  rw [e]
  simp only [NdArr.ofFn, indices_append, map_flatMap]
  apply flatMap_congr
  intro x hx
  rw [show indices [Y.cols] = (range Y.cols).map fun j => [j] by simp [indices, map_eq_flatMap], map_map, map_map]
  apply map_congr_left
  intro j hj
  exact h x hx j (mem_range.1 hj)

/-- `v.reshape(*cols,-1)` of a matrix. -/
theorem reshapeTail_mat (X : DMat R) (s : List ℕ) (hs : s.prod ≠ 0) (hX : X.rows = s.prod) (t : List ℕ) :
    (NdArr.mk t X.flat).reshapeTail s = .ok (NdArr.ofFn (s ++ [X.cols]) fun idx => X.e (ravel s idx.dropLast) (idx.getLastD 0)) := by
  have hd := data_ofFn_rows X s hX (fun idx => X.e (ravel s idx.dropLast) (idx.getLastD 0)) (by
    intro x _ j _; simp)
  unfold reshapeTail
  simp only [length_flat, hX]
  rw [if_neg (by simp [hs]), Nat.mul_div_cancel_left _ (Nat.pos_of_ne_zero hs)]
  simp only [NdArr.reshape]
  rw [← hd]; rfl

theorem sum_indices_ravel (s : List ℕ) (f : ℕ → R) : ((indices s).map fun j => f (ravel s j)).sum = ∑ j ∈ Finset.range s.prod, f j := by
  rw [← sum_map_range, ← map_ravel_indices, map_map]; rfl

theorem prod_ne_zero_of {L : List (DMat R)} (hc : ∀ A ∈ L, A.cols ≠ 0) : (L.map DMat.cols).prod ≠ 0 := by
  rw [Ne, List.prod_eq_zero_iff]
  rintro h
  obtain ⟨A, hA, h0⟩ := mem_map.1 h
  exact hc A hA h0

theorem kronMM_eq {l : List (Act R)} {L : List (DMat R)} (h : IsL l L) (hc : ∀ A ∈ L, A.cols ≠ 0) (X : DMat R)
    (hX : X.rows = (kronL L).cols) (t : List ℕ) : kronMM l ⟨t, X.flat⟩ = .ok ((kronL L).mul X).toArr := by
  rw [kronL_cols_prod] at hX
  unfold kronMM
  rw [h.cols, reshapeTail_mat X _ (prod_ne_zero_of hc) hX t]
  obtain ⟨g, e, hg⟩ := kronLoop_ofFn h hc [] [X.cols] fun idx => X.e (ravel (L.map DMat.cols) idx.dropLast) (idx.getLastD 0)
  simp only [nil_append, length_nil] at e
  show (do
    let ev ← kronLoop l 0 (NdArr.ofFn (L.map DMat.cols ++ [X.cols]) fun idx => X.e (ravel (L.map DMat.cols) idx.dropLast) (idx.getLastD 0))
    ev.reshape? [(l.map Act.rows).prod, ev.shape.getLastD 0]) = _
  rw [e]
  show (NdArr.ofFn (L.map DMat.rows ++ [X.cols]) g).reshape? [(l.map Act.rows).prod, (L.map DMat.rows ++ [X.cols]).getLastD 0] = _
  have hd : (NdArr.ofFn (L.map DMat.rows ++ [X.cols]) g).data = ((kronL L).mul X).flat := by
    refine data_ofFn_rows ((kronL L).mul X) (L.map DMat.rows) (kronL_rows_prod L) g ?_
    intro x hx j hj
    have := hg [] (by simp [indices]) x hx [j] (by simpa [mem_indices] using hj)
    simp only [nil_append] at this
    rw [this, mul_e (A := kronL L) (B := X) (by rw [kronL_rows_prod]; exact ravel_lt hx) hj, kronL_cols_prod,
      ← sum_indices_ravel (L.map DMat.cols)]
    simp
  unfold reshape?
  rw [hd, if_pos (by rw [length_flat, mul_rows, mul_cols, kronL_rows_prod, h.rows]; simp)]
  simp only [NdArr.reshape, hd, toArr, mul_rows, mul_cols, kronL_rows_prod, h.rows]
  simp

theorem kron_is {l : List (Act R)} {L : List (DMat R)} (h : IsL l L) (hc : ∀ A ∈ L, A.cols ≠ 0) : (kron l).Is (kronL L) where
  rows := by rw [kronL_rows_prod, ← h.rows]; rfl
  cols := by rw [kronL_cols_prod, ← h.cols]; rfl
  mm X hX := kronMM_eq h hc X hX _
  mv v hv s _ := by
    have := kronMM_eq h hc (ofVec v) hv s
    rw [ofVec_flat] at this
    show ∃ t, (kronMM l ⟨s, v⟩).map (fun y => y.reshape [y.data.length]) = _
    rw [this]
    exact ⟨_, by rw [mulVec_eq_flat]; rfl⟩

end Act
end Verif
