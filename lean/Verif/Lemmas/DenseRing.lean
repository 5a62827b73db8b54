import Verif.Lemmas.Kron

/-! Ring-like laws of dense matrices: products, transposes, block-diagonal and Kronecker products. -/
namespace Verif
open List

namespace DMat
variable {R : Type*} [CommRing R]

@[simp] theorem mul_rows (A B : DMat R) : (A.mul B).rows = A.rows := rfl
@[simp] theorem mul_cols (A B : DMat R) : (A.mul B).cols = B.cols := rfl
@[simp] theorem add_rows (A B : DMat R) : (A.add B).rows = A.rows := rfl
@[simp] theorem add_cols (A B : DMat R) : (A.add B).cols = A.cols := rfl
@[simp] theorem smul_rows (c : R) (A : DMat R) : (smul c A).rows = A.rows := rfl
@[simp] theorem smul_cols (c : R) (A : DMat R) : (smul c A).cols = A.cols := rfl

theorem mul_e {A B : DMat R} {i j : ℕ} (hi : i < A.rows) (hj : j < B.cols) :
    (A.mul B).e i j = ∑ k ∈ Finset.range A.cols, A.e i k * B.e k j := of_e hi hj

theorem mul_assoc' (A B C : DMat R) (h : A.cols = B.rows) : (A.mul B).mul C = A.mul (B.mul C) := by
  refine ext rfl rfl ?_
  intro i j hi hj
  simp only [mul_rows, mul_cols] at hi hj
  rw [mul_e (A := A.mul B) (by simpa using hi) hj, mul_e (A := A) hi (by simpa using hj)]
  simp only [mul_cols]
  have h1 : ∀ k ∈ Finset.range B.cols, (A.mul B).e i k * C.e k j = ∑ l ∈ Finset.range A.cols, A.e i l * B.e l k * C.e k j := by
    intro k hk
    rw [mul_e hi (Finset.mem_range.1 hk), Finset.sum_mul]
  have h2 : ∀ l ∈ Finset.range A.cols, A.e i l * (B.mul C).e l j = ∑ k ∈ Finset.range B.cols, A.e i l * B.e l k * C.e k j := by
    intro l hl
    rw [mul_e (by rw [← h]; exact Finset.mem_range.1 hl) hj, Finset.mul_sum]
    exact Finset.sum_congr rfl fun k _ => by ring
  rw [Finset.sum_congr rfl h1, Finset.sum_congr rfl h2, Finset.sum_comm]

theorem one_mul' (A : DMat R) {n : ℕ} (h : A.rows = n) : (one n).mul A = A := by
  refine ext (by simp [h]) rfl ?_
  intro i j hi hj
  simp only [mul_rows, mul_cols, one_rows] at hi hj
  rw [mul_e hi hj, one_cols, Finset.sum_eq_single i]
  · rw [one_e hi hi]; simp
  · intro k hk hne; rw [one_e hi (Finset.mem_range.1 hk), if_neg (Ne.symm hne), zero_mul]
  · intro h; exact absurd (Finset.mem_range.2 hi) h

theorem mul_one' (A : DMat R) {n : ℕ} (h : A.cols = n) : A.mul (one n) = A := by
  refine ext rfl (by simp [h]) ?_
  intro i j hi hj
  simp only [mul_rows, mul_cols, one_cols] at hi hj
  rw [mul_e hi hj, h, Finset.sum_eq_single j]
  · rw [one_e hj hj]; simp
  · intro k hk hne; rw [one_e (Finset.mem_range.1 hk) hj, if_neg hne, mul_zero]
  · intro h; exact absurd (Finset.mem_range.2 hj) h

theorem transpose_mul (A B : DMat R) (h : A.cols = B.rows) : (A.mul B).transpose = B.transpose.mul A.transpose := by
  refine ext rfl rfl ?_
  intro i j hi hj
  simp only [transpose_rows, transpose_cols, mul_rows, mul_cols] at hi hj
  rw [transpose_e, mul_e hj hi, mul_e hi hj]
  simp only [transpose_cols, transpose_e, h]
  exact Finset.sum_congr rfl fun k _ => by ring

theorem transpose_one (n : ℕ) : (one n : DMat R).transpose = one n := by
  refine ext rfl rfl ?_
  intro i j hi hj
  simp only [transpose_rows, transpose_cols, one_rows, one_cols] at hi hj
  rw [transpose_e, one_e hj hi, one_e hi hj]; simp [eq_comm]

/-- Mixed-product rule. -/
theorem kron_mul (A B C D : DMat R) (h1 : A.cols = C.rows) (h2 : B.cols = D.rows) :
    (kron A B).mul (kron C D) = kron (A.mul C) (B.mul D) := by
  apply kron_ext (m := A.rows) (n := B.rows) (m' := C.cols) (n' := D.cols) rfl rfl rfl rfl
  intro a b c d ha hb hc hd
  rw [mul_e (mul_add_lt ha hb) (mul_add_lt hc hd)]
  have e2 := kron_e (A := A.mul C) (B := B.mul D) (i := a) (j := c) (i' := b) (j' := d) ha hc hb hd
  simp only [mul_rows, mul_cols] at e2
  rw [e2, mul_e ha hc, mul_e hb hd, Finset.sum_mul_sum, kron_cols, ← Finset.sum_product']
  symm
  apply Finset.sum_bij' (fun (x : ℕ × ℕ) _ => x.1 * B.cols + x.2) (fun k _ => (k / B.cols, k % B.cols))
  · rintro ⟨x, y⟩ hx
    simp only [Finset.mem_product, Finset.mem_range] at hx ⊢
    exact mul_add_lt hx.1 hx.2
  · intro k hk
    simp only [Finset.mem_product, Finset.mem_range] at hk ⊢
    have hp : 0 < B.cols := by rcases Nat.eq_zero_or_pos B.cols with h | h <;> [simp [h] at hk; exact h]
    exact ⟨(Nat.div_lt_iff_lt_mul hp).2 hk, Nat.mod_lt _ hp⟩
  · rintro ⟨x, y⟩ hx
    simp only [Finset.mem_product, Finset.mem_range] at hx
    have hp : 0 < B.cols := by omega
    simp only [Prod.mk.injEq]
    constructor
    · rw [Nat.mul_comm, Nat.mul_add_div hp, Nat.div_eq_of_lt hx.2, Nat.add_zero]
    · rw [Nat.mul_comm, Nat.mul_add_mod, Nat.mod_eq_of_lt hx.2]
  · intro k _
    simp only
    rw [Nat.mul_comm]; exact Nat.div_add_mod _ _
  · rintro ⟨x, y⟩ hx
    simp only [Finset.mem_product, Finset.mem_range] at hx
    simp only
    have e3 := kron_e (A := A) (B := B) (i := a) (j := x) (i' := b) (j' := y) ha hx.1 hb hx.2
    have e4 := kron_e (A := C) (B := D) (i := x) (j := c) (i' := y) (j' := d) (by omega) hc (by omega) hd
    rw [← h2] at e4
    rw [e3, e4]; ring

theorem transpose_kron (A B : DMat R) : (kron A B).transpose = kron A.transpose B.transpose := by
  apply kron_ext (m := A.cols) (n := B.cols) (m' := A.rows) (n' := B.rows) rfl rfl rfl rfl
  intro a b c d ha hb hc hd
  rw [transpose_e]
  have e1 := kron_e (A := A) (B := B) (i := c) (j := a) (i' := d) (j' := b) hc ha hd hb
  have e2 := kron_e (A := A.transpose) (B := B.transpose) (i := a) (j := c) (i' := b) (j' := d) ha hc hb hd
  simp only [transpose_rows, transpose_cols] at e2
  rw [e1, e2, transpose_e, transpose_e]

theorem bdiag2_mul (A B C D : DMat R) (h1 : A.cols = C.rows) (h2 : B.cols = D.rows) :
    (bdiag2 A B).mul (bdiag2 C D) = bdiag2 (A.mul C) (B.mul D) := by
  refine ext rfl rfl ?_
  intro i j hi hj
  simp only [mul_rows, mul_cols, bdiag2_rows, bdiag2_cols] at hi hj
  rw [mul_e (by simpa using hi) (by simpa using hj), bdiag2_cols, Finset.sum_range_add]
  rcases lt_or_ge i A.rows with hi1 | hi1
  · have z : ∀ x ∈ Finset.range B.cols, (bdiag2 A B).e i (A.cols + x) * (bdiag2 C D).e (A.cols + x) j = 0 := by
      intro x _; rw [bdiag2_e12 hi1 (by omega), zero_mul]
    rw [Finset.sum_eq_zero z, add_zero]
    rcases lt_or_ge j C.cols with hj1 | hj1
    · rw [bdiag2_e11 (by simpa using hi1) (by simpa using hj1), mul_e hi1 hj1]
      refine Finset.sum_congr rfl fun x hx => ?_
      have hx := Finset.mem_range.1 hx
      rw [bdiag2_e11 hi1 hx, bdiag2_e11 (by omega) hj1]
    · rw [bdiag2_e12 (by simpa using hi1) (by simpa using hj1)]
      refine Finset.sum_eq_zero fun x hx => ?_
      have hx := Finset.mem_range.1 hx
      rw [bdiag2_e12 (i := x) (by omega) hj1, mul_zero]
  · have z : ∀ x ∈ Finset.range A.cols, (bdiag2 A B).e i x * (bdiag2 C D).e x j = 0 := by
      intro x hx; rw [bdiag2_e21 hi1 (Finset.mem_range.1 hx), zero_mul]
    rw [Finset.sum_eq_zero z, zero_add]
    rcases lt_or_ge j C.cols with hj1 | hj1
    · rw [bdiag2_e21 (by simpa using hi1) (by simpa using hj1)]
      refine Finset.sum_eq_zero fun x hx => ?_
      rw [bdiag2_e21 (i := A.cols + x) (by omega) hj1, mul_zero]
    · rw [bdiag2_e22 (by simpa using hi1) (by simpa using hj1)]
      simp only [mul_rows, mul_cols]
      rw [mul_e (by omega) (by omega)]
      refine Finset.sum_congr rfl fun x hx => ?_
      rw [bdiag2_e22 hi1 (by omega), bdiag2_e22 (by omega) hj1, ← h1]
      simp

theorem transpose_bdiag2 (A B : DMat R) : (bdiag2 A B).transpose = bdiag2 A.transpose B.transpose := by
  refine ext rfl rfl ?_
  intro i j hi hj
  rw [transpose_e]
  rcases lt_or_ge i A.cols with h1 | h1 <;> rcases lt_or_ge j A.rows with h2 | h2
  · rw [bdiag2_e11 h2 h1, bdiag2_e11 h1 h2, transpose_e]
  · rw [bdiag2_e21 h2 h1, bdiag2_e12 (by exact h1) (by exact h2)]
  · rw [bdiag2_e12 h2 h1, bdiag2_e21 (by exact h1) (by exact h2)]
  · rw [bdiag2_e22 h2 h1, bdiag2_e22 (by exact h1) (by exact h2), transpose_e]; rfl

theorem bdiag2_one (m n : ℕ) : bdiag2 (one m : DMat R) (one n) = one (m + n) := by
  refine ext rfl rfl ?_
  intro i j hi hj
  simp only [bdiag2_rows, bdiag2_cols, one_rows, one_cols] at hi hj
  rw [one_e hi hj]
  rcases lt_or_ge i m with h1 | h1 <;> rcases lt_or_ge j m with h2 | h2
  · rw [bdiag2_e11 h1 h2, one_e h1 h2]
  · rw [bdiag2_e12 h1 h2, if_neg (by omega)]
  · rw [bdiag2_e21 h1 h2, if_neg (by omega)]
  · rw [bdiag2_e22 h1 h2]
    simp only [one_rows, one_cols]
    rw [one_e (by omega) (by omega)]
    congr 1
    apply propext; omega

theorem pick_transpose (A : DMat R) (p q : List ℕ) : (A.pick p q).transpose = A.transpose.pick q p := by
  refine ext rfl rfl ?_
  intro i j hi hj
  simp only [transpose_rows, transpose_cols, pick_rows, pick_cols] at hi hj
  rw [transpose_e, pick_e hj hi, pick_e hi hj, transpose_e]

theorem sum_perm_range {p : List ℕ} {n : ℕ} (hp : p ~ range n) (f : ℕ → R) :
    ∑ k ∈ Finset.range n, f (p.getD k 0) = ∑ k ∈ Finset.range n, f k := by
  have h1 : ∀ (l : List ℕ), ∑ k ∈ Finset.range l.length, f (l.getD k 0) = (l.map f).sum := by
    intro l
    induction l with
    | nil => simp
    | cons a t ih => simp only [length_cons, Finset.sum_range_succ', map_cons, sum_cons]; simp only [getD_cons_succ, getD_cons_zero, ih]; ring
  have h2 := h1 p
  rw [length_of_perm_range hp] at h2
  have h3 := h1 (range n)
  rw [length_range] at h3
  rw [h2, (hp.map f).sum_eq, ← h3]
  exact Finset.sum_congr rfl fun k hk => by rw [getD_range (Finset.mem_range.1 hk)]

theorem pick_mul_pick (A B : DMat R) {n : ℕ} {p r s : List ℕ} (hp : p ~ range n) (hA : A.cols = n)
    (hr : ∀ x ∈ r, x < A.rows) (hs : ∀ x ∈ s, x < B.cols) : (A.pick r p).mul (B.pick p s) = (A.mul B).pick r s := by
  refine ext rfl rfl ?_
  intro i j hi hj
  simp only [mul_rows, mul_cols, pick_rows, pick_cols] at hi hj
  rw [mul_e (by simpa) (by simpa), pick_e hi hj, mul_e (hr _ (getD_mem_of_lt hi)) (hs _ (getD_mem_of_lt hj)), pick_cols, hA,
    length_of_perm_range hp, ← sum_perm_range hp (fun k => A.e (r.getD i 0) k * B.e k (s.getD j 0))]
  have hl := length_of_perm_range hp
  refine Finset.sum_congr rfl fun k hk => ?_
  have := Finset.mem_range.1 hk
  rw [pick_e hi (by omega), pick_e (by omega) hj]

theorem pick_one {p : List ℕ} {n : ℕ} (hp : p ~ range n) : (one n : DMat R).pick p p = one n := by
  have hl := length_of_perm_range hp
  apply ext (by simpa using hl) (by simpa using hl)
  intro i j hi hj
  simp only [pick_rows, pick_cols] at hi hj
  have h1 : p.getD i 0 < n := lt_of_perm_range hp (getD_mem_of_lt hi)
  have h2 : p.getD j 0 < n := lt_of_perm_range hp (getD_mem_of_lt hj)
  rw [pick_e hi hj, one_e h1 h2, one_e (by omega) (by omega)]
  congr 1
  apply propext
  constructor
  · exact getD_inj (nodup_of_perm_range hp) hi hj
  · rintro rfl; rfl

/-- Lists of pairs of matrices. -/
theorem kronL_mul {ι : Type*} (l : List ι) (f h : ι → DMat R) (hc : ∀ x ∈ l, (f x).cols = (h x).rows) :
    (kronL (l.map f)).mul (kronL (l.map h)) = kronL (l.map fun x => (f x).mul (h x)) := by
  induction l with
  | nil => simp only [map_nil, kronL]; exact one_mul' _ rfl
  | cons a t ih =>
    simp only [map_cons, kronL]
    rw [kron_mul _ _ _ _ (hc a (by simp)), ih fun x hx => hc x (by simp [hx])]
    rw [kronL_cols, kronL_rows, map_map, map_map]
    congr 1
    exact map_congr_left fun x hx => hc x (by simp [hx])

theorem transpose_kronL (l : List (DMat R)) : (kronL l).transpose = kronL (l.map transpose) := by
  induction l with
  | nil => exact transpose_one 1
  | cons a t ih => simp only [map_cons, kronL, transpose_kron, ih]

theorem bdiag_mul {ι : Type*} (l : List ι) (f h : ι → DMat R) (hc : ∀ x ∈ l, (f x).cols = (h x).rows) :
    (bdiag (l.map f)).mul (bdiag (l.map h)) = bdiag (l.map fun x => (f x).mul (h x)) := by
  induction l with
  | nil => exact ext rfl rfl fun i j hi _ => by simp [bdiag] at hi
  | cons a t ih =>
    simp only [map_cons, bdiag]
    rw [bdiag2_mul _ _ _ _ (hc a (by simp)), ih fun x hx => hc x (by simp [hx])]
    rw [bdiag_cols, bdiag_rows, map_map, map_map]
    congr 1
    exact map_congr_left fun x hx => hc x (by simp [hx])

theorem transpose_bdiag (l : List (DMat R)) : (bdiag l).transpose = bdiag (l.map transpose) := by
  induction l with
  | nil => exact ext rfl rfl fun i j hi _ => by simp [bdiag] at hi
  | cons a t ih => simp only [map_cons, bdiag, transpose_bdiag2, ih]

theorem kronL_one {ι : Type*} (l : List ι) (s : ι → ℕ) : kronL (l.map fun x => (one (s x) : DMat R)) = one (l.map s).prod := by
  induction l with
  | nil => rfl
  | cons a t ih => simp only [map_cons, kronL, ih, kron_one_one, prod_cons]

theorem bdiag_one {ι : Type*} (l : List ι) (s : ι → ℕ) : bdiag (l.map fun x => (one (s x) : DMat R)) = one (l.map s).sum := by
  induction l with
  | nil => exact ext rfl rfl fun i j hi _ => by simp [bdiag] at hi
  | cons a t ih => simp only [map_cons, bdiag, ih, bdiag2_one, sum_cons]

end DMat
end Verif
