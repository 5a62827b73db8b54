import Verif.Lemmas.ProdMat

namespace Verif
open List NdArr

theorem mul_add_lt {a b n m : ℕ} (h1 : a < n) (h2 : b < m) : a * m + b < n * m :=
  calc a * m + b < a * m + m := by omega
    _ = (a + 1) * m := by ring
    _ ≤ n * m := Nat.mul_le_mul_right _ h1

theorem exists_mul_add {i n m : ℕ} (h : i < n * m) : ∃ a b, a < n ∧ b < m ∧ i = a * m + b := by
  have hm : 0 < m := by rcases Nat.eq_zero_or_pos m with h' | h' <;> [simp [h'] at h; exact h']
  refine ⟨i / m, i % m, ?_, Nat.mod_lt _ hm, ?_⟩
  · exact (Nat.div_lt_iff_lt_mul hm).2 h
  · rw [mul_comm]; exact (Nat.div_add_mod i m).symm

/-- row-major positions of the product of two index lists -/
def prodPos (n : ℕ) (p q : List ℕ) : List ℕ := p.flatMap fun x => q.map (x * n + ·)

theorem length_prodPos (n : ℕ) (p q : List ℕ) : (prodPos n p q).length = p.length * q.length := by
  simp [prodPos, length_flatMap]

theorem getD_prodPos {n : ℕ} {p q : List ℕ} {i j : ℕ} (hi : i < p.length) (hj : j < q.length) :
    (prodPos n p q).getD (i * q.length + j) 0 = p.getD i 0 * n + q.getD j 0 := by
  induction p generalizing i with
  | nil => simp at hi
  | cons x p ih =>
    have e : prodPos n (x :: p) q = q.map (x * n + ·) ++ prodPos n p q := by simp [prodPos]
    rw [e]
    cases i with
    | zero =>
      rw [zero_mul, zero_add, DMat.getD_append_left' (by simpa), getD_cons_zero, getD_eq_getElem' (by simpa), getD_eq_getElem' hj]
      simp
    | succ i =>
      have : (i + 1) * q.length + j = q.length + (i * q.length + j) := by ring
      rw [DMat.getD_append_right' (by simp; omega), getD_cons_succ, ← ih (by simpa using hi)]
      congr 1
      simp; omega

theorem prodPos_range (m n : ℕ) : prodPos n (range m) (range n) = range (m * n) := by
  rw [← map_id (range (m * n)), map_range_add]; rfl

namespace DMat
variable {R : Type*} [CommRing R]

theorem kron_ext {X Y : DMat R} {m n m' n' : ℕ} (hX : X.rows = m * n) (hX' : X.cols = m' * n')
    (hY : Y.rows = m * n) (hY' : Y.cols = m' * n')
    (h : ∀ a b c d, a < m → b < n → c < m' → d < n' → X.e (a * n + b) (c * n' + d) = Y.e (a * n + b) (c * n' + d)) :
    X = Y := by
  apply ext (hX.trans hY.symm) (hX'.trans hY'.symm)
  intro i j hi hj
  rw [hX] at hi; rw [hX'] at hj
  obtain ⟨a, b, ha, hb, rfl⟩ := exists_mul_add hi
  obtain ⟨c, d, hc, hd, rfl⟩ := exists_mul_add hj
  exact h a b c d ha hb hc hd

theorem kron_pick (D E : DMat R) {p q p' q' : List ℕ} (hp : ∀ x ∈ p, x < D.rows) (hq : ∀ x ∈ q, x < E.rows)
    (hp' : ∀ x ∈ p', x < D.cols) (hq' : ∀ x ∈ q', x < E.cols) :
    (kron D E).pick (prodPos E.rows p q) (prodPos E.cols p' q') = kron (D.pick p p') (E.pick q q') := by
  apply kron_ext (m := p.length) (n := q.length) (m' := p'.length) (n' := q'.length)
  · simp [length_prodPos]
  · simp [length_prodPos]
  · simp
  · simp
  · intro a b c d ha hb hc hd
    rw [pick_e (by rw [length_prodPos]; exact mul_add_lt ha hb) (by rw [length_prodPos]; exact mul_add_lt hc hd)]
    rw [getD_prodPos ha hb, getD_prodPos hc hd]
    rw [kron_e (hp _ (getD_mem_of_lt ha)) (hp' _ (getD_mem_of_lt hc)) (hq _ (getD_mem_of_lt hb)) (hq' _ (getD_mem_of_lt hd))]
    have := kron_e (A := D.pick p p') (B := E.pick q q') (i := a) (j := c) (i' := b) (j' := d) ha hc hb hd
    simp only [pick_rows, pick_cols] at this
    rw [this, pick_e ha hc, pick_e hb hd]

theorem kron_assoc (A B C : DMat R) : kron (kron A B) C = kron A (kron B C) := by
  apply ext (by simp [mul_assoc]) (by simp [mul_assoc])
  intro i j hi hj
  simp only [kron_rows, kron_cols] at hi hj
  obtain ⟨ab, c, hab, hc, rfl⟩ := exists_mul_add hi
  obtain ⟨a, b, ha, hb, rfl⟩ := exists_mul_add hab
  obtain ⟨ab', c', hab', hc', rfl⟩ := exists_mul_add hj
  obtain ⟨a', b', ha', hb', rfl⟩ := exists_mul_add hab'
  rw [kron_e (A := kron A B) (by simpa) (by simpa) hc hc', kron_e ha ha' hb hb']
  have e1 : (a * B.rows + b) * C.rows + c = a * (kron B C).rows + (b * C.rows + c) := by simp; ring
  have e2 : (a' * B.cols + b') * C.cols + c' = a' * (kron B C).cols + (b' * C.cols + c') := by simp; ring
  rw [e1, e2, kron_e ha ha' (by simpa using mul_add_lt hb hc) (by simpa using mul_add_lt hb' hc'), kron_e hb hb' hc hc']
  ring

theorem one_e {n i j : ℕ} (hi : i < n) (hj : j < n) : (one n : DMat R).e i j = if i = j then 1 else 0 := of_e hi hj

theorem one_kron (A : DMat R) : kron (one 1) A = A := by
  apply kron_ext (m := 1) (n := A.rows) (m' := 1) (n' := A.cols) (by simp) (by simp) (by simp) (by simp)
  intro a b c d ha hb hc hd
  rw [kron_e (A := one 1) ha hc hb hd, one_e ha hc]
  have h1 : a = 0 := by omega
  have h2 : c = 0 := by omega
  simp [h1, h2]

theorem kron_one (A : DMat R) : kron A (one 1) = A := by
  apply ext (by simp) (by simp)
  intro i j hi hj
  simp only [kron_rows, kron_cols, one_rows, one_cols, mul_one] at hi hj
  have := kron_e (A := A) (B := one 1) (i := i) (j := j) (i' := 0) (j' := 0) hi hj (by simp) (by simp)
  simp only [one_rows, one_cols, mul_one, add_zero] at this
  rw [this, one_e (by simp) (by simp)]; simp

theorem kron_one_one (m n : ℕ) : kron (one m) (one n) = (one (m * n) : DMat R) := by
  apply kron_ext (m := m) (n := n) (m' := m) (n' := n) (by simp) (by simp) (by simp) (by simp)
  intro a b c d ha hb hc hd
  have := kron_e (R := R) (A := one m) (B := one n) (i := a) (j := c) (i' := b) (j' := d) ha hc hb hd
  simp only [one_rows, one_cols] at this
  rw [this, one_e ha hc, one_e hb hd, one_e (mul_add_lt ha hb) (mul_add_lt hc hd)]
  have : a * n + b = c * n + d ↔ a = c ∧ b = d := by
    constructor
    · intro h
      have h1 : (a * n + b) / n = a := by rw [mul_comm, Nat.mul_add_div (by omega), Nat.div_eq_of_lt hb]; simp
      have h2 : (c * n + d) / n = c := by rw [mul_comm, Nat.mul_add_div (by omega), Nat.div_eq_of_lt hd]; simp
      have : a = c := by rw [← h1, h, h2]
      exact ⟨this, by subst this; omega⟩
    · rintro ⟨rfl, rfl⟩; rfl
  rw [if_congr this rfl rfl]
  by_cases h1 : a = c <;> by_cases h2 : b = d <;> simp [h1, h2]

theorem kronL_append (L M : List (DMat R)) : kronL (L ++ M) = kron (kronL L) (kronL M) := by
  induction L with
  | nil => simp [kronL, one_kron]
  | cons A L ih => simp [kronL, ih, kron_assoc]

theorem kronL_singleton (A : DMat R) : kronL [A] = A := by simp [kronL, kron_one]

theorem kronL_flatMap {ι : Type*} (L : List ι) (f : ι → List (DMat R)) :
    kronL (L.flatMap f) = kronL (L.map fun i => kronL (f i)) := by
  induction L with
  | nil => rfl
  | cons a L ih => simp [kronL_append, kronL, ih]

theorem kronL_ones (L : List ℕ) : kronL (L.map one) = (one L.prod : DMat R) := by
  induction L with
  | nil => simp [kronL]
  | cons a L ih => simp [kronL, ih, kron_one_one]

/-- `c` copies on the diagonal = `1_c ⊗ A`. -/
theorem bdiag_replicate (c : ℕ) (A : DMat R) : bdiag (replicate c A) = kron (one c) A := by
  induction c with
  | zero =>
    apply ext (by simp [bdiag]) (by simp [bdiag])
    intro i j hi hj
    simp [bdiag] at hi
  | succ c ih =>
    rw [replicate_succ, bdiag, ih]
    apply kron_ext (m := c + 1) (n := A.rows) (m' := c + 1) (n' := A.cols) (by simp; ring) (by simp; ring) (by simp) (by simp)
    intro a b x d ha hb hx hd
    rw [kron_e (A := one (c + 1)) ha hx hb hd, one_e ha hx]
    rcases a with _ | a <;> rcases x with _ | x
    · rw [zero_mul, zero_mul, zero_add, zero_add, bdiag2_e11 hb hd]; simp
    · rw [zero_mul, zero_add, bdiag2_e12 hb (by rw [Nat.succ_mul]; omega)]; simp
    · rw [zero_mul, zero_add, bdiag2_e21 (by rw [Nat.succ_mul]; omega) hd]; simp
    · have h1 : (a + 1) * A.rows + b - A.rows = a * A.rows + b := by rw [Nat.succ_mul]; omega
      have h2 : (x + 1) * A.cols + d - A.cols = x * A.cols + d := by rw [Nat.succ_mul]; omega
      rw [bdiag2_e22 (by rw [Nat.succ_mul]; omega) (by rw [Nat.succ_mul]; omega), h1, h2]
      rw [kron_e (A := one c) (by simp; omega) (by simp; omega) hb hd, one_e (by omega) (by omega)]
      simp

end DMat
end Verif
