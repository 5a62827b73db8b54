import Verif.Lemmas.LinApply7
import Verif.Lemmas.DenseInv

namespace Verif
open List DMat

namespace Op

section
variable {R : Type} [CommRing R]

/-- `N` is the inverse of the transpose of `A`. -/
def IsInvT (N A : DMat R) : Prop := ∃ n, N.IsSq n ∧ A.IsSq n ∧ N.transpose.mul A = one n

theorem map_perm_range {n : ℕ} {f : ℕ → ℕ} (hf : ∀ i < n, f i < n) (hi : ∀ i < n, ∀ j < n, f i = f j → i = j) :
    (range n).map f ~ range n := by
  refine (subperm_of_subset ?_ ?_).perm_of_length_le (by simp)
  · rw [nodup_map_iff_inj_on nodup_range]
    exact fun i h1 j h2 => hi i (mem_range.1 h1) j (mem_range.1 h2)
  · intro x hx
    obtain ⟨i, h, rfl⟩ := mem_map.1 hx
    exact mem_range.2 (hf i (mem_range.1 h))

theorem of_eq_permMat (n : ℕ) (f : ℕ → ℕ) : (of n n fun i j => if f i = j then 1 else 0 : DMat R) = permMat ((range n).map f) := by
  refine DMat.ext (by simp) (by simp) fun i j hi hj => ?_
  have hi : i < n := hi
  have hj : j < n := hj
  rw [permMat, of_e hi hj, of_e (by simpa) (by simpa), getD_eq_getElem _ _ (by simpa), getElem_map, getElem_range]

theorem permMat_invT {p : List ℕ} (hp : p ~ range p.length) : IsInvT (permMat p : DMat R) (permMat p) := by
  refine ⟨p.length, ⟨rfl, rfl⟩, ⟨rfl, rfl⟩, ?_⟩
  have e : (permMat p : DMat R).transpose = permMat (argsort p) := by
    rw [← DMat.transpose_permMat hp, transpose_transpose]
  have hl : (argsort p).length = p.length := by rw [(argsort_perm p).length_eq, length_range]
  rw [e]
  exact mul_eq_one_comm ⟨rfl, rfl⟩ ⟨hl, hl⟩ (permMat_mul_argsort hp)

theorem permMat_map_invT {n : ℕ} {f : ℕ → ℕ} (hf : ∀ i < n, f i < n) (hi : ∀ i < n, ∀ j < n, f i = f j → i = j) :
    IsInvT (of n n fun i j => if f i = j then 1 else 0 : DMat R) (of n n fun i j => if f i = j then 1 else 0) := by
  rw [of_eq_permMat]
  exact permMat_invT (by rw [length_map, length_range]; exact map_perm_range hf hi)

theorem shift_invT (n : ℕ) (k : ℤ) : IsInvT (shiftMat n (k % n).toNat : DMat R) (shiftMat n (k % n).toNat) := by
  have e : (shiftMat n (k % n).toNat : DMat R) = of n n fun i j => if (((i : ℤ) - k) % n).toNat = j then 1 else 0 := by
    refine DMat.ext rfl rfl fun i j hi hj => ?_
    have hi : i < n := hi
    have hj : j < n := hj
    rw [shiftMat, of_e hi hj, of_e hi hj]
    congr 1
    rw [eq_iff_iff, Act.shift_src k hi hj]
    exact eq_comm
  rw [e]
  have hlt : ∀ i < n, (((i : ℤ) - k) % n).toNat < n := by
    intro i hi
    have h2 : 0 ≤ ((i : ℤ) - k) % n := Int.emod_nonneg _ (by omega)
    have h3 : ((i : ℤ) - k) % n < n := Int.emod_lt_of_pos _ (by omega)
    omega
  refine permMat_map_invT hlt fun i hi j hj h => ?_
  have h1 := (Act.shift_src k hi (hlt i hi)).2 rfl
  have h2 := (Act.shift_src k hj (hlt j hj)).2 rfl
  rw [← h1, ← h2, h]

theorem rotSrc_inj {n : ℕ} (k : ℕ) : ∀ {i j i' j' : ℕ}, i < n → j < n → i' < n → j' < n →
    rotSrc n k (i, j) = rotSrc n k (i', j') → i = i' ∧ j = j' := by
  induction k with
  | zero => intro i j i' j' _ _ _ _ h; exact Prod.mk.inj h
  | succ k ih =>
    intro i j i' j' hi hj hi' hj' h
    have := ih hj (by omega) hj' (by omega) h
    omega

theorem rot_invT (n k : ℕ) : IsInvT (rotMat n k : DMat R) (rotMat n k) := by
  have key : ∀ {i}, i < n * n → (rotSrc n k (i / n, i % n)).1 < n ∧ (rotSrc n k (i / n, i % n)).2 < n := by
    intro i hi
    have h0 : 0 < n := Nat.pos_of_ne_zero fun h => by rw [h] at hi; simp at hi
    exact Act.rotSrc_lt k (Nat.div_lt_of_lt_mul hi) (Nat.mod_lt _ h0)
  refine permMat_map_invT (n := n * n) (f := fun a => (rotSrc n k (a / n, a % n)).1 * n + (rotSrc n k (a / n, a % n)).2)
    (fun i hi => mul_add_lt (key hi).1 (key hi).2) fun i hi j hj h => ?_
  have h0 : 0 < n := Nat.pos_of_ne_zero fun h => by rw [h] at hi; simp at hi
  obtain ⟨a1, a2⟩ := key hi
  obtain ⟨b1, b2⟩ := key hj
  have h : (rotSrc n k (i / n, i % n)).1 * n + (rotSrc n k (i / n, i % n)).2 =
      (rotSrc n k (j / n, j % n)).1 * n + (rotSrc n k (j / n, j % n)).2 := h
  have e1 : (rotSrc n k (i / n, i % n)).1 = (rotSrc n k (j / n, j % n)).1 := by
    have := congrArg (· / n) h
    simpa [Nat.mul_comm _ n, Nat.mul_add_div h0, Nat.div_eq_of_lt a2, Nat.div_eq_of_lt b2] using this
  have e2 : (rotSrc n k (i / n, i % n)).2 = (rotSrc n k (j / n, j % n)).2 := by rw [e1] at h; omega
  have := rotSrc_inj k (Nat.div_lt_of_lt_mul hi) (Nat.mod_lt _ h0) (Nat.div_lt_of_lt_mul hj) (Nat.mod_lt _ h0) (Prod.ext e1 e2)
  rw [← Nat.div_add_mod i n, ← Nat.div_add_mod j n, this.1, this.2]

theorem IsInvT.kron {N A N' A' : DMat R} (h : IsInvT N A) (h' : IsInvT N' A') : IsInvT (DMat.kron N N') (DMat.kron A A') := by
  obtain ⟨n, hN, hA, e⟩ := h
  obtain ⟨m, hN', hA', e'⟩ := h'
  refine ⟨n * m, ⟨by simp [hN.1, hN'.1], by simp [hN.2, hN'.2]⟩, ⟨by simp [hA.1, hA'.1], by simp [hA.2, hA'.2]⟩, ?_⟩
  rw [transpose_kron, kron_mul _ _ _ _ (by simp [hN.1, hA.1]) (by simp [hN'.1, hA'.1]), e, e', kron_one_one]

theorem IsInvT.mul {N A N' A' : DMat R} (h : IsInvT N A) (h' : IsInvT N' A') (hc : A.cols = A'.rows) : IsInvT (N.mul N') (A.mul A') := by
  obtain ⟨n, hN, hA, e⟩ := h
  obtain ⟨m, hN', hA', e'⟩ := h'
  obtain rfl : n = m := by rw [← hA.2, hc, hA'.1]
  refine ⟨n, ⟨hN.1, hN'.2⟩, ⟨hA.1, hA'.2⟩, ?_⟩
  rw [DMat.transpose_mul _ _ (by rw [hN.2, hN'.1]), mul_assoc' _ _ _ (by simp [hN.2, hN'.1]), ← mul_assoc' N.transpose _ _ (by simp [hN.1, hA.1]), e,
    one_mul' _ hA'.1, e']

theorem IsInvT.one (n : ℕ) : IsInvT (one n : DMat R) (DMat.one n) :=
  ⟨n, ⟨rfl, rfl⟩, ⟨rfl, rfl⟩, by rw [transpose_one]; exact one_mul' (DMat.one n) rfl⟩

theorem IsInvT.sq {N A : DMat R} (h : IsInvT N A) : N.rows = N.cols ∧ A.rows = A.cols ∧ N.rows = A.rows := by
  obtain ⟨n, h1, h2, _⟩ := h
  exact ⟨h1.1.trans h1.2.symm, h2.1.trans h2.2.symm, h1.1.trans h2.1.symm⟩

theorem IsInvT.pow {N A : DMat R} (h : IsInvT N A) : ∀ k, IsInvT (N.pow k) (A.pow k)
  | 0 => by
    show IsInvT (DMat.one N.rows) (DMat.one A.rows)
    rw [h.sq.2.2]
    exact IsInvT.one _
  | k + 1 => h.mul (h.pow k) (by rw [Act.pow_rows, h.sq.2.1])

end

variable {R : Type} [Field R] [StarRing R] [DecidableEq R]

variable {inv : DMat R → Py (DMat R)}

mutual
theorem invT_ok (hinv : InvSpec inv) : ∀ M : Op R, M.WF → M.Inv →
    ∃ N, M.invT inv = .ok N ∧ N.WF ∧ N.asArr = none ∧ IsInvT N.den M.den
  | .arr _, _, h => by rw [Inv] at h; exact h.elim
  | .lazy A, _, h => by
    rw [Inv] at h
    obtain ⟨n, B, hA, hB, e⟩ := h
    obtain ⟨B', e1, hB', e2⟩ := hinv A n hA ⟨B, hB, e⟩
    refine ⟨.lazy B'.transpose, by rw [invT, e1]; rfl, by rw [WF]; trivial, rfl, n, ?_, ?_, ?_⟩
    · rw [den]; exact ⟨hB'.2, hB'.1⟩
    · rw [den]; exact hA
    · rw [den, den, transpose_transpose, e2]
  | .eye n, h, _ => ⟨.eye n, by rw [invT], h, rfl, by rw [den]; exact IsInvT.one n⟩
  | .kron Ms, h, h' => by
    have hb := h; rw [WF] at hb
    rw [Inv] at h'
    obtain ⟨Ns, e, w, hl, i⟩ := invTL_ok hinv Ms hb.1 h'
    refine ⟨.kron Ns, ?_, ?_, rfl, ?_⟩
    · rw [invT, e]
      exact mkKron_two (by omega)
    · rw [WF]
      refine ⟨w, by omega, ?_⟩
      have h3 := hb.2.2
      clear e w hl hb h h'
      generalize denL Ms = L at i h3
      generalize denL Ns = L' at i
      induction i with
      | nil => simp
      | cons hh _ ih =>
        intro A hA
        rcases mem_cons.1 hA with rfl | hA
        · rw [← hh.sq.1, hh.sq.2.2, hh.sq.2.1]; exact h3 _ (by simp)
        · exact ih (fun B hB => h3 B (by simp [hB])) A hA
    · rw [den, den]
      clear e w hl hb h h'
      generalize denL Ms = L at i
      generalize denL Ns = L' at i
      induction i with
      | nil => exact IsInvT.one 1
      | cons hh _ ih => exact hh.kron ih
  | .kronsum _, _, h => by rw [Inv] at h; exact h.elim
  | .concat _, _, h => by rw [Inv] at h; exact h.elim
  | .dsum _, _, h => by rw [Inv] at h; exact h.elim
  | .perm p, h, _ => ⟨.perm p, by rw [invT], h, rfl, by rw [WF] at h; rw [den]; exact permMat_invT h⟩
  | .shift n k, h, _ => ⟨.shift n k, by rw [invT], h, rfl, by rw [den]; exact shift_invT n k⟩
  | .rot90 n k, h, _ => ⟨.rot90 n k, by rw [invT], h, rfl, by rw [den]; exact rot_invT n _⟩
  | .jvp _, _, h => by rw [Inv] at h; exact h.elim
  | .closure _ _ _ _ _, _, h => by rw [Inv] at h; exact h.elim
  | .noMatvec _ _, _, h => by rw [Inv] at h; exact h.elim
  | .selfRef _ _, _, h => by rw [Inv] at h; exact h.elim
  | .add _ _, _, h => by rw [Inv] at h; exact h.elim
  | .mul A B, h, h' => by
    rw [WF] at h
    rw [Inv] at h'
    obtain ⟨N, e, w, a, i⟩ := invT_ok hinv A h.1 h'.1
    obtain ⟨N', e', w', a', i'⟩ := invT_ok hinv B h.2.1 h'.2
    have hc : N.den.cols = N'.den.rows := by
      rw [← i.sq.1, i.sq.2.2, i.sq.2.1, h.2.2.1, i'.sq.2.2]
    refine ⟨.mul N N', ?_, by rw [WF]; exact ⟨w, w', hc, a, a'⟩, rfl, by rw [den, den]; exact i.mul i' h.2.2.1⟩
    rw [invT, e, e']
    show mkMul N N' = _
    rw [mkMul, a, a', shape_eq w, shape_eq w', if_neg (by simp), if_pos hc]
  | .smul _ _, _, h => by rw [Inv] at h; exact h.elim
  | .pow A n, h, h' => by
    rw [WF] at h
    rw [Inv] at h'
    obtain ⟨N, e, w, a, i⟩ := invT_ok hinv A h.1 h'
    refine ⟨.pow N n, ?_, by rw [WF]; exact ⟨w, i.sq.1, a⟩, rfl, by rw [den, den]; exact i.pow n⟩
    rw [invT, e]
    show mkPow N n = _
    rw [mkPow, a, shape_eq w, if_neg (by simp), if_neg (by simpa using i.sq.1), if_neg (by omega)]
    simp
  | .adj _, _, h => by rw [Inv] at h; exact h.elim
  | .tr _, _, h => by rw [Inv] at h; exact h.elim
theorem invTL_ok (hinv : InvSpec inv) : ∀ Ms : List (Op R), WFL Ms → InvL Ms →
    ∃ Ns, invTL inv Ms = .ok Ns ∧ WFL Ns ∧ Ns.length = Ms.length ∧ Forall₂ IsInvT (denL Ns) (denL Ms)
  | [], _, _ => ⟨[], by rw [invTL], by rw [WFL]; trivial, rfl, by rw [denL]; exact .nil⟩
  | M :: Ms, h, h' => by
    rw [WFL] at h
    rw [InvL] at h'
    obtain ⟨N, e, w, _, i⟩ := invT_ok hinv M h.1 h'.1
    obtain ⟨Ns, e', w', hl, i'⟩ := invTL_ok hinv Ms h.2 h'.2
    exact ⟨N :: Ns, by rw [invTL, e, e']; rfl, by rw [WFL]; exact ⟨w, w'⟩, by simp [hl], by rw [denL, denL]; exact .cons i i'⟩
end

end Op
end Verif
