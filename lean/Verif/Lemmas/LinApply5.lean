import Verif.Lemmas.LinApply4

namespace Verif
open List

namespace Act
variable {R : Type} [CommRing R] {a b : Act R} {A B : DMat R}
open NdArr DMat

/-! ### Rolls and quarter turns -/

theorem shift_src {n : ℕ} (k : ℤ) {i j : ℕ} (hi : i < n) (hj : j < n) :
    (j + (k % n).toNat) % n = i ↔ j = (((i : ℤ) - k) % n).toNat := by
  have hn : (n : ℤ) ≠ 0 := by omega
  have h1 : 0 ≤ k % n := Int.emod_nonneg _ hn
  have h2 : 0 ≤ ((i : ℤ) - k) % n := Int.emod_nonneg _ hn
  have e1 : (((k % n).toNat : ℕ) : ℤ) = k % n := Int.toNat_of_nonneg h1
  have e2 : (((((i : ℤ) - k) % n).toNat : ℕ) : ℤ) = ((i : ℤ) - k) % n := Int.toNat_of_nonneg h2
  rw [← Int.ofNat_inj, ← Int.ofNat_inj (m := j), e2, Int.natCast_emod, Int.natCast_add, e1]
  have hii : ((i : ℕ) : ℤ) = (i : ℤ) % n := (Int.emod_eq_of_lt (by omega) (by omega)).symm
  have hjj : ((j : ℕ) : ℤ) = (j : ℤ) % n := (Int.emod_eq_of_lt (by omega) (by omega)).symm
  constructor
  · intro h
    rw [hjj]
    have : ((j : ℤ) + k % n) ≡ i [ZMOD n] := by unfold Int.ModEq; rw [h, ← hii]
    have h3 : ((j : ℤ) + k) ≡ i [ZMOD n] := ((Int.mod_modEq k n).add_left j).symm.trans this
    have := h3.sub_right k
    rw [add_sub_cancel_right] at this
    exact this
  · intro h
    have : (j : ℤ) ≡ i - k [ZMOD n] := by unfold Int.ModEq; rw [← hjj, h]
    have h3 := (this.add_right k).trans (by rw [sub_add_cancel])
    have h4 : ((j : ℤ) + k % n) ≡ i [ZMOD n] := ((Int.mod_modEq k n).add_left j).trans h3
    rw [h4, ← hii]

theorem shift_row {n : ℕ} (k : ℤ) {i : ℕ} (hi : i < n) (f : ℕ → R) :
    ∑ j ∈ Finset.range n, (shiftMat n (k % n).toNat : DMat R).e i j * f j = f (((i : ℤ) - k) % n).toNat := by
  have hn : (n : ℤ) ≠ 0 := by omega
  have h2 : 0 ≤ ((i : ℤ) - k) % n := Int.emod_nonneg _ hn
  have h3 : ((i : ℤ) - k) % n < n := Int.emod_lt_of_pos _ (by omega)
  have hlt : (((i : ℤ) - k) % n).toNat < n := by omega
  rw [Finset.sum_eq_single (((i : ℤ) - k) % n).toNat]
  · rw [shiftMat, of_e hi hlt, if_pos ((shift_src k hi hlt).2 rfl), one_mul]
  · intro j hj hne
    have hj := Finset.mem_range.1 hj
    rw [shiftMat, of_e hi hj, if_neg fun h => hne ((shift_src k hi hj).1 h), zero_mul]
  · intro hn; exact absurd (Finset.mem_range.2 hlt) hn

theorem shift_is (n : ℕ) (k : ℤ) : (shift n k : Act R).Is (shiftMat n (k % n).toNat) := by
  refine Is.same rfl rfl rfl (fun X hX => ?_) fun v hv => ⟨[n], ?_⟩
  · show Except.ok (X.toArr.roll k) = _
    have hX : X.rows = n := hX
    rw [mul_toArr]
    congr 1
    unfold roll
    show NdArr.ofFn [X.rows, X.cols] _ = NdArr.ofFn [n, X.cols] _
    rw [show X.toArr.shape = [X.rows, X.cols] from rfl, hX]
    apply NdArr.ofFn_congr
    intro idx hidx
    rw [mem_indices] at hidx
    obtain ⟨i, t, hi, ht, rfl⟩ := forall₂_cons_right_iff.1 hidx
    obtain ⟨j, t', hj, ht', rfl⟩ := forall₂_cons_right_iff.1 ht
    cases ht'
    have h2 : 0 ≤ ((i : ℤ) - k) % n := Int.emod_nonneg _ (by omega)
    have h3 : ((i : ℤ) - k) % n < n := Int.emod_lt_of_pos _ (by omega)
    show X.toArr.get [(((i : ℤ) - k) % n).toNat, j] = ∑ l ∈ Finset.range n, (shiftMat n (k % n).toNat : DMat R).e i l * X.e l j
    rw [toArr_get X (by omega) hj, shift_row k hi fun l => X.e l j]
  · show Except.ok ((NdArr.mk [n] v).roll k) = _
    congr 1
    unfold roll
    simp only [NdArr.ofFn, indices, map_map, map_flatMap, mulVec]
    congr 1
    show _ = (range n).map _
    rw [map_eq_flatMap]
    apply flatMap_congr
    intro i hi
    have := shift_row (R := R) k (mem_range.1 hi) fun l => v.getD l 0
    show [NdArr.get ⟨[n], v⟩ [(((i : ℤ) - k) % n).toNat]] = [∑ j ∈ Finset.range n, _]
    rw [this]
    simp [NdArr.get, ravel]

theorem shiftMat_transpose (n : ℕ) (k : ℤ) : (shiftMat n (k % n).toNat : DMat R).transpose = shiftMat n ((-k) % n).toNat := by
  refine ext rfl rfl fun i j hi hj => ?_
  have hi : i < n := hi
  have hj : j < n := hj
  rw [transpose_e, shiftMat, shiftMat, of_e hj hi, of_e hi hj]
  congr 1
  rw [eq_iff_iff, shift_src k hj hi, shift_src (-k) hi hj]
  have h1 : 0 ≤ ((j : ℤ) - k) % n := Int.emod_nonneg _ (by omega)
  have h2 : 0 ≤ ((i : ℤ) - -k) % n := Int.emod_nonneg _ (by omega)
  have hii : ((i : ℕ) : ℤ) = (i : ℤ) % n := (Int.emod_eq_of_lt (by omega) (by omega)).symm
  have hjj : ((j : ℕ) : ℤ) = (j : ℤ) % n := (Int.emod_eq_of_lt (by omega) (by omega)).symm
  constructor
  · intro h
    have h3 : ((i : ℕ) : ℤ) = ((j : ℤ) - k) % n := by omega
    have : (i : ℤ) ≡ j - k [ZMOD n] := by unfold Int.ModEq; rw [← hii, h3]
    have h4 : (i : ℤ) - -k ≡ j [ZMOD n] := by have := this.add_right k; rwa [sub_add_cancel, ← sub_neg_eq_add] at this
    have : ((i : ℤ) - -k) % n = j := by rw [h4, ← hjj]
    omega
  · intro h
    have h3 : ((j : ℕ) : ℤ) = ((i : ℤ) - -k) % n := by omega
    have : (j : ℤ) ≡ i - -k [ZMOD n] := by unfold Int.ModEq; rw [← hjj, h3]
    have h4 : (j : ℤ) - k ≡ i [ZMOD n] := by have := this.sub_right k; rwa [sub_neg_eq_add, add_sub_cancel_right] at this
    have : ((j : ℤ) - k) % n = i := by rw [h4, ← hii]
    omega

/-- A 3-d array given by its entries. -/
def arr3 (n m k : ℕ) (g : ℕ → ℕ → ℕ → R) : NdArr R := NdArr.ofFn [n, m, k] fun idx => g (idx.getD 0 0) (idx.getD 1 0) (idx.getD 2 0)

theorem ofFn_arr3 {n m k : ℕ} {f : List ℕ → R} {g : ℕ → ℕ → ℕ → R} (h : ∀ i j c, i < n → j < m → c < k → f [i, j, c] = g i j c) :
    NdArr.ofFn [n, m, k] f = arr3 n m k g := by
  apply NdArr.ofFn_congr
  intro idx hidx
  rw [mem_indices] at hidx
  obtain ⟨i, t, hi, ht, rfl⟩ := forall₂_cons_right_iff.1 hidx
  obtain ⟨j, t', hj, ht', rfl⟩ := forall₂_cons_right_iff.1 ht
  obtain ⟨c, t'', hc, ht'', rfl⟩ := forall₂_cons_right_iff.1 ht'
  cases ht''
  exact h i j c hi hj hc

theorem arr3_get {n m k i j c : ℕ} (g : ℕ → ℕ → ℕ → R) (hi : i < n) (hj : j < m) (hc : c < k) : (arr3 n m k g).get [i, j, c] = g i j c := by
  unfold arr3
  rw [NdArr.get_ofFn _ _ (by simp [mem_indices, hi, hj, hc])]
  rfl

theorem arr3_flip1 (n m k : ℕ) (g : ℕ → ℕ → ℕ → R) : (arr3 n m k g).flip1 = arr3 n m k fun i j c => g i (m - 1 - j) c :=
  ofFn_arr3 fun i j c hi hj hc => arr3_get g hi (by show m - 1 - j < m; omega) hc

theorem arr3_flip0 (n m k : ℕ) (g : ℕ → ℕ → ℕ → R) : (arr3 n m k g).flip0 = arr3 n m k fun i j c => g (n - 1 - i) j c :=
  ofFn_arr3 fun i j c hi hj hc => arr3_get g (by show n - 1 - i < n; omega) hj hc

theorem arr3_swap (n m k : ℕ) (g : ℕ → ℕ → ℕ → R) : (arr3 n m k g).swapaxes 0 1 = arr3 m n k fun i j c => g j i c :=
  ofFn_arr3 fun i j c hi hj hc => arr3_get g hj hi hc

theorem arr3_rot90 (n k : ℕ) (g : ℕ → ℕ → ℕ → R) (q : ℤ) : (arr3 n n k g).rot90 q =
    arr3 n n k fun i j c => g (rotSrc n (q % 4).toNat (i, j)).1 (rotSrc n (q % 4).toNat (i, j)).2 c := by
  have h0 : 0 ≤ q % 4 := Int.emod_nonneg _ (by omega)
  have h4 : q % 4 < 4 := Int.emod_lt_of_pos _ (by omega)
  unfold NdArr.rot90
  have : q % 4 = 0 ∨ q % 4 = 1 ∨ q % 4 = 2 ∨ q % 4 = 3 := by omega
  rcases this with h | h | h | h <;> rw [h]
  · rfl
  · rw [if_neg (by omega), if_pos rfl, arr3_flip1, arr3_swap]; rfl
  · rw [if_neg (by omega), if_neg (by omega), if_pos rfl, arr3_flip0, arr3_flip1]; rfl
  · rw [if_neg (by omega), if_neg (by omega), if_neg (by omega), arr3_swap, arr3_flip1]
    unfold arr3
    apply NdArr.ofFn_congr
    intro idx hidx
    have h1 := lt_of_mem_indices hidx (i := 1) (by simp)
    have h0 := lt_of_mem_indices hidx (i := 0) (by simp)
    simp only [getD_cons_zero, getD_cons_succ] at h0 h1
    show g (n - 1 - idx.getD 1 0) (idx.getD 0 0) _ = g (n - 1 - idx.getD 1 0) (n - 1 - (n - 1 - idx.getD 0 0)) _
    congr 1
    omega

theorem rotSrc_lt {n : ℕ} (k : ℕ) : ∀ {i j : ℕ}, i < n → j < n → (rotSrc n k (i, j)).1 < n ∧ (rotSrc n k (i, j)).2 < n := by
  induction k with
  | zero => intro i j hi hj; exact ⟨hi, hj⟩
  | succ k ih => intro i j hi hj; exact ih hj (by omega)

theorem rot90_data (n : ℕ) (hn : n ≠ 0) (k : ℤ) (X : DMat R) (hX : X.rows = n * n) (t : List ℕ) (ht : t.prod = X.rows * X.cols) :
    (do let x ← (NdArr.mk t X.flat).reshapeTail [n, n]
        (x.rot90 k).reshape? t) = Except.ok ⟨t, ((rotMat n (k % 4).toNat).mul X).flat⟩ := by
  rw [reshapeTail_mat X [n, n] (by simp [hn]) (by simpa using hX)]
  show ((NdArr.ofFn [n, n, X.cols] fun idx => X.e (ravel [n, n] idx.dropLast) (idx.getLastD 0)).rot90 k).reshape? t = _
  rw [ofFn_arr3 (g := fun i j c => X.e (i * n + j) c) (by intro i j c _ _ _; simp [ravel]), arr3_rot90]
  have hd : (arr3 n n X.cols fun i j c => X.e ((rotSrc n (k % 4).toNat (i, j)).1 * n + (rotSrc n (k % 4).toNat (i, j)).2) c).data =
      ((rotMat n (k % 4).toNat).mul X).flat := by
    refine data_ofFn_rows ((rotMat n (k % 4).toNat).mul X) [n, n] (by show n * n = _; simp) _ ?_
    intro x hx c hc
    rw [mem_indices] at hx
    obtain ⟨i, t, hi, ht, rfl⟩ := forall₂_cons_right_iff.1 hx
    obtain ⟨j, t', hj, ht', rfl⟩ := forall₂_cons_right_iff.1 ht
    cases ht'
    have hr : ravel [n, n] [i, j] = i * n + j := by simp [ravel]
    rw [hr, mul_e (A := rotMat n _) (B := X) (mul_add_lt hi hj) hc]
    obtain ⟨s1, s2⟩ := rotSrc_lt (k % 4).toNat hi hj
    show X.e ((rotSrc n (k % 4).toNat (i, j)).1 * n + (rotSrc n (k % 4).toNat (i, j)).2) c = ∑ l ∈ Finset.range (n * n), _
    have hij : ((i * n + j) / n, (i * n + j) % n) = (i, j) := by
      rw [Nat.mul_comm, Nat.mul_add_div (by omega), Nat.div_eq_of_lt hj, Nat.mul_add_mod, Nat.mod_eq_of_lt hj, Nat.add_zero]
    rw [Finset.sum_eq_single ((rotSrc n (k % 4).toNat (i, j)).1 * n + (rotSrc n (k % 4).toNat (i, j)).2)]
    · rw [rotMat, of_e (mul_add_lt hi hj) (mul_add_lt s1 s2), hij, if_pos rfl, one_mul]
    · intro l hl hne
      rw [rotMat, of_e (mul_add_lt hi hj) (Finset.mem_range.1 hl), hij, if_neg (Ne.symm hne), zero_mul]
    · intro hn; exact absurd (Finset.mem_range.2 (mul_add_lt s1 s2)) hn
  unfold reshape?
  rw [hd, if_pos (by rw [length_flat, ht, hX]; rfl)]
  simp only [NdArr.reshape, hd]

theorem rot90_is (n : ℕ) (hn : n ≠ 0) (k : ℤ) : (rot90 n k : Act R).Is (rotMat n (k % 4).toNat) := by
  refine Is.same rfl rfl rfl (fun X hX => ?_) fun v hv => ⟨[n * n], ?_⟩
  · refine (rot90_data n hn k X hX [X.rows, X.cols] (by simp)).trans ?_
    rw [toArr, mul_rows, mul_cols, hX]; rfl
  · have hv : v.length = n * n := hv
    have := rot90_data n hn k (ofVec v) hv [n * n] (by show _ = v.length * 1; simp [hv])
    rw [ofVec_flat] at this
    refine Eq.trans this ?_
    rw [mulVec_eq_flat]

/-! ### Sums, products, multiples, powers, transposes -/

theorem Is.toArr_add (X Y : DMat R) (hr : X.rows = Y.rows) (hc : X.cols = Y.cols) : X.toArr.add? Y.toArr = .ok (X.add Y).toArr := by
  rw [toArr_eq X, toArr_eq Y, toArr_eq (X.add Y), ← hr, ← hc, add?_ofFn]
  congr 1
  apply NdArr.ofFn_congr
  intro idx h
  exact (of_e (R := R) (m := X.rows) (n := X.cols) (f := fun i j => X.e i j + Y.e i j) (lt_of_mem_indices h (i := 0) (by simp)) (lt_of_mem_indices h (i := 1) (by simp))).symm

theorem add_mul_mat (X : DMat R) (hr : A.rows = B.rows) (hc : A.cols = B.cols) : (A.add B).mul X = (A.mul X).add (B.mul X) := by
  refine ext rfl rfl fun i j hi hj => ?_
  have hi : i < A.rows := hi
  have hj : j < X.cols := hj
  rw [mul_e (A := A.add B) hi hj]
  refine Eq.trans ?_ (of_e (m := A.rows) (n := X.cols) hi hj).symm
  rw [mul_e hi hj, mul_e (hr ▸ hi) hj, ← hc, ← Finset.sum_add_distrib]
  apply Finset.sum_congr rfl
  intro k hk
  rw [show (A.add B).e i k = A.e i k + B.e i k from of_e hi (Finset.mem_range.1 hk), add_mul]

theorem add_mulVec (v : List R) (hr : A.rows = B.rows) (hc : A.cols = B.cols) :
    zipWith (· + ·) (A.mulVec v) (B.mulVec v) = (A.add B).mulVec v := by
  simp only [mulVec, ← hr, ← hc, zipWith_map, zipWith_self]
  apply map_congr_left
  intro i hi
  rw [← Finset.sum_add_distrib]
  apply Finset.sum_congr rfl
  intro k hk
  rw [show (A.add B).e i k = A.e i k + B.e i k from of_e (mem_range.1 hi) (Finset.mem_range.1 hk), add_mul]

theorem add_is (h1 : a.Is A) (h2 : b.Is B) (hr : A.rows = B.rows) (hc : A.cols = B.cols) : (a.add b).Is (A.add B) where
  rows := h1.rows
  cols := h1.cols
  mm X hX := by
    show (do (← a.matmat X.toArr).add? (← b.matmat X.toArr)) = _
    rw [h1.matmat X hX, h2.matmat X (hX.trans hc)]
    show (A.mul X).toArr.add? (B.mul X).toArr = _
    rw [Is.toArr_add (A.mul X) (B.mul X) hr rfl, add_mul_mat X hr hc]
  mv v hv s hs := by
    have hv' : v.length = A.cols := hv
    show ∃ t, (do (← a.matvec ⟨s, v⟩).add? (← b.matvec ⟨s, v⟩)) = _
    rcases hs with rfl | rfl
    · have e1 := h1.matvec1 v hv'
      have e2 := h2.matvec1 v (hv'.trans hc)
      rw [← hc, ← hr] at e2
      rw [show [(A.add B).cols] = [A.cols] from rfl, e1, e2]
      exact ⟨[A.rows], by show add? _ _ = _; simp only [add?, if_true, add_mulVec v hr hc]⟩
    · have e1 := h1.matvec2 v hv'
      have e2 := h2.matvec2 v (hv'.trans hc)
      rw [← hc, ← hr] at e2
      rw [show [(A.add B).cols, 1] = [A.cols, 1] from rfl, e1, e2]
      exact ⟨[A.rows, 1], by show add? _ _ = _; simp only [add?, if_true, add_mulVec v hr hc]⟩

theorem mul_is (h1 : a.Is A) (h2 : b.Is B) (hc : A.cols = B.rows) : (a.mul b).Is (A.mul B) where
  rows := h1.rows
  cols := h2.cols
  mm X hX := by
    show (do a.matmat (← b.matmat X.toArr)) = _
    rw [h2.matmat X hX]
    show a.matmat (B.mul X).toArr = _
    rw [h1.matmat (B.mul X) hc.symm, mul_assoc' _ _ _ hc]
  mv v hv s hs := by
    have hv' : v.length = B.cols := hv
    show ∃ t, (do a.matvec (← b.matvec ⟨s, v⟩)) = _
    rcases hs with rfl | rfl
    · rw [show [(A.mul B).cols] = [B.cols] from rfl, h2.matvec1 v hv', mulVec_mul _ _ _ hc, ← hc]
      exact ⟨_, h1.matvec1 (B.mulVec v) (by rw [length_mulVec, hc])⟩
    · rw [show [(A.mul B).cols, 1] = [B.cols, 1] from rfl, h2.matvec2 v hv', mulVec_mul _ _ _ hc, ← hc]
      exact ⟨_, h1.matvec2 (B.mulVec v) (by rw [length_mulVec, hc])⟩

theorem smul_mul_mat (c : R) (A X : DMat R) : (DMat.smul c A).mul X = DMat.smul c (A.mul X) := by
  refine ext rfl rfl fun i j hi hj => ?_
  have hi : i < A.rows := hi
  have hj : j < X.cols := hj
  rw [mul_e (A := DMat.smul c A) hi hj]
  refine Eq.trans ?_ (of_e (m := A.rows) (n := X.cols) hi hj).symm
  rw [mul_e hi hj, Finset.mul_sum]
  apply Finset.sum_congr rfl
  intro k hk
  rw [show (DMat.smul c A).e i k = c * A.e i k from of_e hi (Finset.mem_range.1 hk), mul_assoc]

theorem scale_toArr (c : R) (A : DMat R) : A.toArr.scale c = (DMat.smul c A).toArr := by
  rw [toArr_eq A, toArr_eq (DMat.smul c A)]
  simp only [scale, NdArr.ofFn, map_map]
  congr 1
  apply map_congr_left
  intro idx h
  exact (of_e (R := R) (m := A.rows) (n := A.cols) (f := fun i j => c * A.e i j) (lt_of_mem_indices h (i := 0) (by simp)) (lt_of_mem_indices h (i := 1) (by simp))).symm

theorem smul_mulVec (c : R) (A : DMat R) (v : List R) : (A.mulVec v).map (c * ·) = (DMat.smul c A).mulVec v := by
  simp only [mulVec, map_map]
  apply map_congr_left
  intro i hi
  simp only [Function.comp, Finset.mul_sum]
  apply Finset.sum_congr rfl
  intro k hk
  rw [show (DMat.smul c A).e i k = c * A.e i k from of_e (mem_range.1 hi) (Finset.mem_range.1 hk), mul_assoc]

theorem smul_is (c : R) (h : a.Is A) : (a.smul c).Is (DMat.smul c A) where
  rows := h.rows
  cols := h.cols
  mm X hX := by
    show (do Except.ok ((← a.matmat X.toArr).scale c)) = _
    rw [h.matmat X hX]
    show Except.ok ((A.mul X).toArr.scale c) = _
    rw [scale_toArr, smul_mul_mat]
  mv v hv s hs := by
    have hv' : v.length = A.cols := hv
    show ∃ t, (do Except.ok ((← a.matvec ⟨s, v⟩).scale c)) = _
    rcases hs with rfl | rfl
    · rw [show [(DMat.smul c A).cols] = [A.cols] from rfl, h.matvec1 v hv', ← smul_mulVec]
      exact ⟨_, rfl⟩
    · rw [show [(DMat.smul c A).cols, 1] = [A.cols, 1] from rfl, h.matvec2 v hv', ← smul_mulVec]
      exact ⟨_, rfl⟩

theorem pow_rows (A : DMat R) : ∀ n, (A.pow n).rows = A.rows
  | 0 => rfl
  | _ + 1 => rfl

theorem pow_cols (A : DMat R) (h : A.rows = A.cols) : ∀ n, (A.pow n).cols = A.cols
  | 0 => h
  | n + 1 => pow_cols A h n

theorem pow_succ_right (A : DMat R) (h : A.rows = A.cols) : ∀ n, A.pow (n + 1) = (A.pow n).mul A
  | 0 => by
    show A.mul (one A.rows) = (one A.rows).mul A
    rw [mul_one' A h.symm, one_mul' A rfl]
  | n + 1 => by
    have ih := pow_succ_right A h n
    show A.mul (A.pow (n + 1)) = (A.mul (A.pow n)).mul A
    rw [ih, mul_assoc' _ _ _ (by rw [pow_rows, h])]

theorem iter_matmat (h : a.Is A) (hs : A.rows = A.cols) : ∀ (n : ℕ) (X : DMat R), X.rows = A.cols →
    iter a.matmat n X.toArr = .ok ((A.pow n).mul X).toArr
  | 0, X, hX => by
    show Except.ok X.toArr = _
    rw [show A.pow 0 = one A.rows from rfl, one_mul' X (by rw [hX, hs])]
  | n + 1, X, hX => by
    show (do iter a.matmat n (← a.matmat X.toArr)) = _
    rw [h.matmat X hX]
    show iter a.matmat n (A.mul X).toArr = _
    rw [iter_matmat h hs n (A.mul X) hs, pow_succ_right A hs, mul_assoc' _ _ _ (by rw [pow_cols A hs, hs])]

theorem iter_matvec (h : a.Is A) (hs : A.rows = A.cols) : ∀ (n : ℕ) (v : List R), v.length = A.cols → ∀ s, s = [A.cols] ∨ s = [A.cols, 1] →
    iter a.matvec n ⟨s, v⟩ = .ok ⟨s, (A.pow n).mulVec v⟩
  | 0, v, hv, s, _ => by
    show Except.ok _ = _
    rw [show A.pow 0 = one A.rows from rfl, mulVec_one v (by rw [hv, hs])]
  | n + 1, v, hv, s, h' => by
    show (do iter a.matvec n (← a.matvec ⟨s, v⟩)) = _
    have e : a.matvec ⟨s, v⟩ = .ok ⟨s, A.mulVec v⟩ := by
      rcases h' with rfl | rfl
      · rw [h.matvec1 v hv, hs]
      · rw [h.matvec2 v hv, hs]
    rw [e]
    show iter a.matvec n ⟨s, A.mulVec v⟩ = _
    rw [iter_matvec h hs n (A.mulVec v) (by rw [length_mulVec, hs]) s h', pow_succ_right A hs, mulVec_mul _ _ _ (by rw [pow_cols A hs, hs])]

theorem pow_is (h : a.Is A) (hs : A.rows = A.cols) (n : ℕ) : (a.pow n).Is (A.pow n) where
  rows := h.rows.trans (pow_rows A n).symm
  cols := h.cols.trans (pow_cols A hs n).symm
  mm X hX := iter_matmat h hs n X (hX.trans (pow_cols A hs n))
  mv v hv s hs' := ⟨s, by
    rw [pow_cols A hs n] at hv hs'
    exact iter_matvec h hs n v hv s hs'⟩

theorem viaH_is (h : a.Is A) : (viaH a).Is A where
  rows := h.rows
  cols := h.cols
  mm X hX := h.matmat X hX
  mv v hv s hs := by
    rcases hs with rfl | rfl
    · exact ⟨_, h.matvec1 v hv⟩
    · exact ⟨_, h.matvec2 v hv⟩

section star
variable [StarRing R]

/-- Entrywise conjugate. -/
def conjMat (A : DMat R) : DMat R := of A.rows A.cols fun i j => star (A.e i j)

theorem conjMat_e (A : DMat R) (i j : ℕ) : (conjMat A).e i j = star (A.e i j) := by
  by_cases h : i < A.rows ∧ j < A.cols
  · exact of_e h.1 h.2
  · rw [(conjMat A).out i j h, A.out i j h, star_zero]

theorem conjMat_conjMat (A : DMat R) : conjMat (conjMat A) = A :=
  DMat.ext rfl rfl fun i j _ _ => by rw [conjMat_e, conjMat_e, star_star]

theorem conj_toArr (A : DMat R) : A.toArr.conj = (conjMat A).toArr := by
  rw [toArr_eq A, toArr_eq (conjMat A)]
  simp only [NdArr.conj, NdArr.ofFn, map_map]
  congr 1
  apply map_congr_left
  intro idx _
  exact (conjMat_e A _ _).symm

theorem conjMat_mul (A X : DMat R) : conjMat (A.mul X) = (conjMat A).mul (conjMat X) := by
  refine DMat.ext rfl rfl fun i j hi hj => ?_
  have hi : i < A.rows := hi
  have hj : j < X.cols := hj
  rw [conjMat_e, mul_e hi hj, mul_e (A := conjMat A) (B := conjMat X) hi hj, star_sum]
  apply Finset.sum_congr rfl
  intro k _
  rw [conjMat_e, conjMat_e, star_mul']

theorem conjMat_mulVec (A : DMat R) (v : List R) : (A.mulVec (v.map star)).map star = (conjMat A).mulVec v := by
  simp only [mulVec, map_map]
  apply map_congr_left
  intro i _
  simp only [Function.comp, star_sum]
  apply Finset.sum_congr rfl
  intro k _
  rw [conjMat_e, star_mul']
  congr 1
  have : (v.map star).getD k 0 = star (v.getD k 0) := by
    rw [← star_zero R, getD_map, star_zero]
  rw [this, star_star]

theorem conj_is (h : a.Is A) : a.conj.Is (conjMat A) where
  rows := h.rows
  cols := h.cols
  mm X hX := by
    show (do Except.ok (← a.mm X.toArr.conj).conj) = _
    rw [conj_toArr, h.mm (conjMat X) hX]
    show Except.ok (NdArr.conj _) = _
    rw [conj_toArr, conjMat_mul, conjMat_conjMat]
  mv v hv s hs := by
    show ∃ t, (do Except.ok (← a.mv (NdArr.mk s v).conj).conj) = _
    obtain ⟨t, ht⟩ := h.mv (v.map star) (by rw [length_map]; exact hv) s hs
    exact ⟨t, by
      show (do Except.ok (← a.mv ⟨s, v.map star⟩).conj) = _
      rw [ht]
      show Except.ok (NdArr.mk t ((A.mulVec (v.map star)).map star)) = _
      rw [conjMat_mulVec]⟩

end star

end Act
end Verif
