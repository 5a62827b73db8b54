import Verif.Spec.Grid
import Verif.Spec.Group
import Verif.Props.GroupObjects
import Verif.Lemmas.ProdCanon
import Verif.Lemmas.Kron
import Mathlib.LinearAlgebra.Dimension.Constructions
import Mathlib.LinearAlgebra.Dimension.Finite

/-!
# C63: the group `ZksZnxZn(k,n)` of motions of a square grid
-/
namespace Verif
open List

section
variable {k n : ℕ} [NeZero k] [NeZero n]

theorem sitePos_lt (p : Site k n) : sitePos p < k * (n * n) := by
  have h1 : p.1.val + 1 ≤ k := ZMod.val_lt p.1
  have h2 : p.2.1.val + 1 ≤ n := ZMod.val_lt p.2.1
  have h3 : p.2.2.val < n := ZMod.val_lt p.2.2
  have := Nat.mul_le_mul_right (n * n) h1
  have := Nat.mul_le_mul_right n h2
  unfold sitePos
  rw [add_mul] at *
  omega

theorem sitePos_div (p : Site k n) : sitePos p / (n * n) = p.1.val ∧ sitePos p % (n * n) = p.2.1.val * n + p.2.2.val := by
  have h2 : p.2.1.val + 1 ≤ n := ZMod.val_lt p.2.1
  have h3 : p.2.2.val < n := ZMod.val_lt p.2.2
  have := Nat.mul_le_mul_right n h2
  have hlt : p.2.1.val * n + p.2.2.val < n * n := by rw [add_mul] at this; omega
  have hp : 0 < n * n := by omega
  unfold sitePos
  constructor
  · rw [Nat.mul_comm, Nat.mul_add_div hp, Nat.div_eq_of_lt hlt, Nat.add_zero]
  · rw [Nat.mul_comm, Nat.mul_add_mod, Nat.mod_eq_of_lt hlt]

theorem pixel_div (x : Pixel n) : (x.1.val * n + x.2.val) / n = x.1.val ∧ (x.1.val * n + x.2.val) % n = x.2.val := by
  have h3 : x.2.val < n := ZMod.val_lt x.2
  constructor
  · rw [Nat.mul_comm, Nat.mul_add_div (NeZero.pos n), Nat.div_eq_of_lt h3, Nat.add_zero]
  · rw [Nat.mul_comm, Nat.mul_add_mod, Nat.mod_eq_of_lt h3]

theorem sitePos_inj {p q : Site k n} (h : sitePos p = sitePos q) : p = q := by
  have h1 := sitePos_div p
  have h2 := sitePos_div q
  rw [h] at h1
  have e1 : p.1 = q.1 := ZMod.val_injective k (h1.1.symm.trans h2.1)
  have e2 := h1.2.symm.trans h2.2
  have h3 := pixel_div p.2
  have h4 := pixel_div q.2
  rw [e2] at h3
  exact Prod.ext e1 (Prod.ext (ZMod.val_injective n (h3.1.symm.trans h4.1)) (ZMod.val_injective n (h3.2.symm.trans h4.2)))

/-- Sites and positions correspond. -/
noncomputable def siteEquiv (k n : ℕ) [NeZero k] [NeZero n] : Site k n ≃ Fin (k * (n * n)) :=
  Equiv.ofBijective (fun p => ⟨sitePos p, sitePos_lt p⟩) ((Fintype.bijective_iff_injective_and_card _).2
    ⟨fun p q h => sitePos_inj (Fin.ext_iff.1 h), by simp [Pixel, ZMod.card]⟩)

variable {M N : Matrix (Fin (k * (n * n))) (Fin (k * (n * n))) ℝ} {f g : Site k n → Site k n}

theorem moves_iff : Moves M f ↔ ∀ p q, M (siteEquiv k n q) (siteEquiv k n p) = if q = f p then 1 else 0 :=
  ⟨fun h p q => h p q (sitePos_lt p) (sitePos_lt q), fun h p q _ _ => h p q⟩

theorem Moves.mul (h1 : Moves M f) (h2 : Moves N g) : Moves (M * N) (f ∘ g) := by
  rw [moves_iff] at *
  intro p q
  rw [Matrix.mul_apply, ← (siteEquiv k n).sum_comp]
  simp only [h1, h2, mul_ite, mul_one, mul_zero]
  rw [Finset.sum_ite_eq' Finset.univ (g p), if_pos (Finset.mem_univ _)]
  rfl

theorem Moves.one : Moves (1 : Matrix (Fin (k * (n * n))) (Fin (k * (n * n))) ℝ) (id : Site k n → Site k n) := by
  rw [moves_iff]
  intro p q
  rw [Matrix.one_apply]
  simp only [EmbeddingLike.apply_eq_iff_eq, id]

theorem Moves.unique (h1 : Moves M f) (h2 : Moves N f) : M = N := by
  rw [moves_iff] at *
  ext i j
  obtain ⟨q, rfl⟩ := (siteEquiv k n).surjective i
  obtain ⟨p, rfl⟩ := (siteEquiv k n).surjective j
  rw [h1, h2]

theorem Moves.congr (h1 : Moves M f) (h : f = g) : Moves M g := h ▸ h1

theorem Moves.inv (h1 : Moves M f) (h2 : Moves N g) (h : f ∘ g = id) : M⁻¹ = N :=
  Matrix.inv_eq_right_inv ((h1.mul h2).congr h |>.unique Moves.one)

theorem Moves.pow (h1 : Moves M f) (m : ℕ) : Moves (M ^ m) f^[m] := by
  induction m with
  | zero => rw [pow_zero]; exact Moves.one
  | succ m ih => rw [pow_succ, Function.iterate_succ]; exact ih.mul h1

theorem exists_moves (f : Site k n → Site k n) : ∃ N, Moves N f := by
  refine ⟨Matrix.of fun i j => if (siteEquiv k n).symm i = f ((siteEquiv k n).symm j) then 1 else 0, moves_iff.2 fun p q => ?_⟩
  simp

/-! ### Quarter turns -/

omit [NeZero n] in
theorem turn_four : (turn^[4] : Pixel n → Pixel n) = id := by
  funext x
  simp only [turn, Function.iterate_succ, Function.iterate_zero, Function.comp, id]
  ext <;> simp

omit [NeZero n] in
theorem turn0_four : (turn0^[4] : Pixel n → Pixel n) = id := by
  funext x
  simp [turn0, Function.iterate_succ, Function.iterate_zero, Function.comp]

omit [NeZero n] in
theorem turn_add (x t : Pixel n) : turn (x + t) = turn x + turn0 t := by
  simp only [turn, turn0]
  ext
  · simp; ring
  · simp

omit [NeZero n] in
theorem turn_iter_add (m : ℕ) (x t : Pixel n) : turn^[m] (x + t) = turn^[m] x + turn0^[m] t := by
  induction m generalizing x t with
  | zero => rfl
  | succ m ih => rw [Function.iterate_succ_apply, turn_add, ih, Function.iterate_succ_apply, Function.iterate_succ_apply]

omit [NeZero n] in
theorem turn0_iter_add (m : ℕ) (x t : Pixel n) : turn0^[m] (x + t) = turn0^[m] x + turn0^[m] t := by
  induction m generalizing x t with
  | zero => rfl
  | succ m ih =>
    rw [Function.iterate_succ_apply, Function.iterate_succ_apply, Function.iterate_succ_apply, ← ih]
    congr 1
    simp [turn0, add_comm]

omit [NeZero n] in
theorem turn_mod (m : ℕ) : (turn^[m] : Pixel n → Pixel n) = turn^[m % 4] := by
  conv_lhs => rw [← Nat.div_add_mod m 4, Function.iterate_add, Function.iterate_mul, turn_four, Function.iterate_id]
  rfl

omit [NeZero n] in
theorem turn0_mod (m : ℕ) : (turn0^[m] : Pixel n → Pixel n) = turn0^[m % 4] := by
  conv_lhs => rw [← Nat.div_add_mod m 4, Function.iterate_add, Function.iterate_mul, turn0_four, Function.iterate_id]
  rfl

theorem steps_mod (hk : k = 2 ∨ k = 4) (m : ℕ) : 4 / k * (m % k) % 4 = 4 / k * m % 4 := by
  rcases hk with rfl | rfl <;> omega

theorem turn_steps (hk : k = 2 ∨ k = 4) (s s' : ZMod k) : (turn^[4 / k * (s + s').val] : Pixel n → Pixel n) = turn^[4 / k * s.val + 4 / k * s'.val] := by
  rw [turn_mod, ZMod.val_add, steps_mod hk, ← turn_mod, Nat.mul_add]

/-- Motions compose: the translation of the first is turned by the second. -/
theorem motion_comp (hk : k = 2 ∨ k = 4) (s s' : ZMod k) (t t' : Pixel n) :
    motion s t ∘ motion s' t' = motion (s + s') (turn0^[4 / k * s.val] t' + t) := by
  funext p
  simp only [Function.comp, motion]
  rw [turn_steps hk, turn_iter_add, Function.iterate_add_apply]
  refine Prod.ext ?_ ?_
  · simp only; ring
  · simp only; rw [add_assoc]


theorem motion_zero : motion (0 : ZMod k) (0 : Pixel n) = id := by
  funext p
  simp [motion]

/-- Every motion has an inverse motion. -/
theorem motion_inv (hk : k = 2 ∨ k = 4) (s : ZMod k) (t : Pixel n) : ∃ s' t', motion s t ∘ motion s' t' = (id : Site k n → Site k n) := by
  refine ⟨-s, turn0^[4 / k * (-s).val] (-t), ?_⟩
  rw [motion_comp hk, add_neg_cancel, ← motion_zero (k := k) (n := n)]
  congr 1
  rw [← Function.iterate_add_apply, ← Nat.mul_add, turn0_mod, ← steps_mod hk, ← ZMod.val_add, add_neg_cancel]
  simp

theorem translate_iter (hk : k = 2 ∨ k = 4) (t : Pixel n) (m : ℕ) : (motion (0 : ZMod k) t)^[m] = motion 0 ((m : ZMod n) * t.1, (m : ZMod n) * t.2) := by
  induction m with
  | zero =>
    simp only [Function.iterate_zero, Nat.cast_zero, zero_mul]
    exact motion_zero.symm
  | succ m ih =>
    rw [Function.iterate_succ, ih, motion_comp hk]
    congr 1
    · simp
    · simp only [ZMod.val_zero, Nat.mul_zero, Function.iterate_zero, id]
      ext <;> simp <;> ring

theorem turn_motion_iter (hk : k = 2 ∨ k = 4) (m : ℕ) : (motion (1 : ZMod k) (0 : Pixel n))^[m] = motion (m : ZMod k) 0 := by
  have h0 : ∀ m : ℕ, turn0^[m] (0 : Pixel n) = 0 := by
    intro m
    induction m with
    | zero => rfl
    | succ m ih => rw [Function.iterate_succ_apply, show turn0 (0 : Pixel n) = 0 by simp [turn0], ih]
  induction m with
  | zero =>
    rw [Function.iterate_zero, Nat.cast_zero]
    exact motion_zero.symm
  | succ m ih =>
    rw [Function.iterate_succ, ih, motion_comp hk, h0, Nat.cast_succ, add_zero]

/-! ### The generators -/

/-- The pixel that comes to `q` by a quarter turn. -/
def unturn {n : ℕ} (q : Pixel n) : Pixel n := (q.2, -1 - q.1)

omit [NeZero n] in
theorem unturn_turn : Function.LeftInverse (unturn : Pixel n → Pixel n) turn := by intro x; simp [unturn, turn]

omit [NeZero n] in
theorem turn_unturn : Function.LeftInverse (turn : Pixel n → Pixel n) unturn := by intro x; simp [unturn, turn]

theorem rotSrc_eq (m : ℕ) (q : Pixel n) : DMat.rotSrc n m (q.1.val, q.2.val) = ((unturn^[m] q).1.val, (unturn^[m] q).2.val) := by
  induction m generalizing q with
  | zero => rfl
  | succ m ih =>
    have hq := ZMod.val_lt q.1
    have e : n - 1 - q.1.val = (-1 - q.1 : ZMod n).val := by
      have : ((n - 1 - q.1.val : ℕ) : ZMod n) = -1 - q.1 := by
        rw [Nat.cast_sub (by omega), Nat.cast_sub (NeZero.one_le), ZMod.natCast_self, ZMod.natCast_zmod_val]
        simp
      rw [← this, ZMod.val_natCast, Nat.mod_eq_of_lt (by omega)]
    rw [DMat.rotSrc, Function.iterate_succ_apply]
    show DMat.rotSrc n m (q.2.val, n - 1 - q.1.val) = _
    rw [e]
    exact ih (unturn q)

theorem rotMat_site (m : ℕ) (x y : Pixel n) :
    (DMat.rotMat n m : DMat ℝ).e (y.1.val * n + y.2.val) (x.1.val * n + x.2.val) = if y = turn^[m] x then 1 else 0 := by
  have hlt : ∀ x : Pixel n, x.1.val * n + x.2.val < n * n := fun x => mul_add_lt (ZMod.val_lt _) (ZMod.val_lt _)
  unfold DMat.rotMat
  rw [DMat.of_e (hlt y) (hlt x)]
  simp only
  rw [(pixel_div y).1, (pixel_div y).2, rotSrc_eq]
  congr 1
  refine propext ⟨fun h => ?_, ?_⟩
  · have e : unturn^[m] y = x := by
      have h1 := pixel_div (unturn^[m] y)
      have h2 := pixel_div x
      simp only at h
      rw [h] at h1
      exact Prod.ext (ZMod.val_injective n (h1.1.symm.trans h2.1)) (ZMod.val_injective n (h1.2.symm.trans h2.2))
    rw [← e, (turn_unturn.iterate m) y]
  · rintro rfl
    rw [(unturn_turn.iterate m) x]

theorem shiftMat_site (i j : ZMod n) : (DMat.shiftMat n 1 : DMat ℝ).e i.val j.val = if i = j + 1 then 1 else 0 := by
  unfold DMat.shiftMat
  rw [DMat.of_e (ZMod.val_lt i) (ZMod.val_lt j)]
  congr 1
  refine propext ?_
  rw [← ZMod.val_natCast, (ZMod.val_injective n).eq_iff, Nat.cast_add, ZMod.natCast_zmod_val, Nat.cast_one, eq_comm]

theorem one_site (i j : ZMod n) : (DMat.one n : DMat ℝ).e i.val j.val = if i = j then 1 else 0 := by
  unfold DMat.one
  rw [DMat.of_e (ZMod.val_lt i) (ZMod.val_lt j)]
  simp only [(ZMod.val_injective n).eq_iff]

theorem kron3_site {A B C : DMat ℝ} (hA : A.IsSq k) (hB : B.IsSq n) (hC : C.IsSq n) (p q : Site k n) :
    (DMat.kronL [A, B, C]).e (sitePos q) (sitePos p) = A.e q.1.val p.1.val * (B.e q.2.1.val p.2.1.val * C.e q.2.2.val p.2.2.val) := by
  obtain ⟨a1, a2⟩ := hA
  obtain ⟨b1, b2⟩ := hB
  obtain ⟨c1, c2⟩ := hC
  simp only [DMat.kronL, DMat.kron_one, sitePos]
  have h := DMat.kron_e (A := A) (B := DMat.kron B C) (i := q.1.val) (j := p.1.val) (i' := q.2.1.val * n + q.2.2.val) (j' := p.2.1.val * n + p.2.2.val)
    (by rw [a1]; exact ZMod.val_lt _) (by rw [a2]; exact ZMod.val_lt _)
    (by rw [DMat.kron_rows, b1, c1]; exact mul_add_lt (ZMod.val_lt _) (ZMod.val_lt _)) (by rw [DMat.kron_cols, b2, c2]; exact mul_add_lt (ZMod.val_lt _) (ZMod.val_lt _))
  rw [DMat.kron_rows, DMat.kron_cols, b1, b2, c1, c2] at h
  rw [h]
  have h := DMat.kron_e (A := B) (B := C) (i := q.2.1.val) (j := p.2.1.val) (i' := q.2.2.val) (j' := p.2.2.val)
    (by rw [b1]; exact ZMod.val_lt _) (by rw [b2]; exact ZMod.val_lt _) (by rw [c1]; exact ZMod.val_lt _) (by rw [c2]; exact ZMod.val_lt _)
  rw [c1, c2] at h
  rw [h]

theorem kron2_site {A B : DMat ℝ} (hA : A.IsSq k) (hB : B.IsSq (n * n)) (p q : Site k n) :
    (DMat.kronL [A, B]).e (sitePos q) (sitePos p) = A.e q.1.val p.1.val * B.e (q.2.1.val * n + q.2.2.val) (p.2.1.val * n + p.2.2.val) := by
  obtain ⟨a1, a2⟩ := hA
  obtain ⟨b1, b2⟩ := hB
  simp only [DMat.kronL, DMat.kron_one, sitePos]
  have h := DMat.kron_e (A := A) (B := B) (i := q.1.val) (j := p.1.val) (i' := q.2.1.val * n + q.2.2.val) (j' := p.2.1.val * n + p.2.2.val)
    (by rw [a1]; exact ZMod.val_lt _) (by rw [a2]; exact ZMod.val_lt _)
    (by rw [b1]; exact mul_add_lt (ZMod.val_lt _) (ZMod.val_lt _)) (by rw [b2]; exact mul_add_lt (ZMod.val_lt _) (ZMod.val_lt _))
  rw [b1, b2] at h
  rw [h]

theorem gen0_moves : Moves (denseGen (k * (n * n)) (.kron [.eye k, .shift n 1, .eye n])) (motion (0 : ZMod k) ((1, 0) : Pixel n)) := by
  intro p q hp hq
  simp only [denseGen, Matrix.of_apply, LinOp.sem, LinOp.semL]
  rw [kron3_site (k := k) (n := n) (A := DMat.one k) (B := DMat.shiftMat n 1) (C := DMat.one n) ⟨rfl, rfl⟩ ⟨rfl, rfl⟩ ⟨rfl, rfl⟩, one_site, shiftMat_site, one_site]
  simp only [motion, ZMod.val_zero, Nat.mul_zero, Function.iterate_zero, id, add_zero, Prod.ext_iff, Prod.fst_add, Prod.snd_add]
  split_ifs <;> simp_all

theorem gen1_moves : Moves (denseGen (k * (n * n)) (.kron [.eye k, .eye n, .shift n 1])) (motion (0 : ZMod k) ((0, 1) : Pixel n)) := by
  intro p q hp hq
  simp only [denseGen, Matrix.of_apply, LinOp.sem, LinOp.semL]
  rw [kron3_site (k := k) (n := n) (A := DMat.one k) (B := DMat.one n) (C := DMat.shiftMat n 1) ⟨rfl, rfl⟩ ⟨rfl, rfl⟩ ⟨rfl, rfl⟩, one_site, shiftMat_site, one_site]
  simp only [motion, ZMod.val_zero, Nat.mul_zero, Function.iterate_zero, id, add_zero, Prod.ext_iff, Prod.fst_add, Prod.snd_add]
  split_ifs <;> simp_all

theorem gen2_moves (hk : k = 2 ∨ k = 4) : Moves (denseGen (k * (n * n)) (.kron [.shift k 1, .rot90 n (4 / k)])) (motion (1 : ZMod k) (0 : Pixel n)) := by
  intro p q hp hq
  simp only [denseGen, Matrix.of_apply, LinOp.sem, LinOp.semL]
  have h1 : (1 : ZMod k).val = 1 := by rcases hk with rfl | rfl <;> rfl
  rw [kron2_site (k := k) (n := n) (A := DMat.shiftMat k 1) (B := DMat.rotMat n (4 / k)) ⟨rfl, rfl⟩ ⟨rfl, rfl⟩, shiftMat_site, rotMat_site (4 / k) p.2 q.2]
  simp only [motion, h1, mul_one, add_zero]
  by_cases e1 : q.1 = p.1 + 1 <;> by_cases e2 : q.2 = turn^[4 / k] p.2
  · rw [if_pos e1, if_pos e2, if_pos (Prod.ext e1 e2), mul_one]
  · rw [if_neg e2, if_neg (fun h => e2 (congrArg Prod.snd h)), mul_zero]
  · rw [if_neg e1, zero_mul, if_neg (fun h => e1 (congrArg Prod.fst h))]
  · rw [if_neg e1, zero_mul, if_neg (fun h => e1 (congrArg Prod.fst h))]

/-- The matrices of the generators. -/
theorem zkszn_gens (hk : k = 2 ∨ k = 4) : ∃ G, zksznGroup k n = .ok G ∧ G.d = some (k * (n * n)) ∧ G.lie = [] ∧ ∃ A B C, G.disc.map (denseGen (k * (n * n))) = [A, B, C] ∧
    Moves A (motion (0 : ZMod k) ((1, 0) : Pixel n)) ∧ Moves B (motion (0 : ZMod k) ((0, 1) : Pixel n)) ∧ Moves C (motion (1 : ZMod k) (0 : Pixel n)) := by
  refine ⟨_, by unfold zksznGroup; rw [if_pos hk]; exact groupInit_disc _ _, ?_, rfl, _, _, _, rfl, gen0_moves, gen1_moves, gen2_moves hk⟩
  simp only [LinOp.sem, LinOp.semL, DMat.kronL, DMat.kron_one]
  rfl

/-- **C63.** The group generated by the discrete generators of `ZksZnxZn(k,n)`, `k` being 2 or 4 and `n ≥ 1`, consists exactly of the motions
of the periodic grid: turns by multiples of a right angle (a straight angle for `k = 2`) that also advance the orientation, followed by translations. -/
theorem C63_motions (hk : k = 2 ∨ k = 4) : ∃ G, zksznGroup k n = .ok G ∧ G.d = some (k * (n * n)) ∧ G.lie = [] ∧
    ∀ M, Generated [] (G.disc.map (denseGen (k * (n * n)))) M ↔ ∃ (s : ZMod k) (t : Pixel n), Moves M (motion s t) := by
  obtain ⟨G, h1, h2, h3, A, B, C, h4, hA, hB, hC⟩ := zkszn_gens (k := k) (n := n) hk
  refine ⟨G, h1, h2, h3, fun M => ?_⟩
  rw [h4]
  constructor
  · intro h
    have hgen : ∀ M ∈ [A, B, C], ∃ (s : ZMod k) (t : Pixel n), Moves M (motion s t) := by
      intro M hM
      simp only [mem_cons, not_mem_nil, or_false] at hM
      rcases hM with rfl | rfl | rfl
      exacts [⟨_, _, hA⟩, ⟨_, _, hB⟩, ⟨_, _, hC⟩]
    induction h with
    | one => exact ⟨0, 0, motion_zero (k := k) (n := n) ▸ Moves.one⟩
    | exp h =>
      rename_i X
      have : X = 0 := by simpa using h
      rw [this, NormedSpace.exp_zero]
      exact ⟨0, 0, motion_zero (k := k) (n := n) ▸ Moves.one⟩
    | gen h => exact hgen _ h
    | inv h =>
      obtain ⟨s, t, hm⟩ := hgen _ h
      obtain ⟨s', t', e⟩ := motion_inv (n := n) hk s t
      obtain ⟨N, hN⟩ := exists_moves (motion s' t')
      exact ⟨s', t', hm.inv hN e ▸ hN⟩
    | mul _ _ ih1 ih2 =>
      obtain ⟨s, t, h1⟩ := ih1
      obtain ⟨s', t', h2⟩ := ih2
      exact ⟨_, _, (h1.mul h2).congr (motion_comp hk s s' t t')⟩
  · rintro ⟨s, t, h⟩
    have key : Moves (A ^ t.1.val * B ^ t.2.val * C ^ s.val) (motion s t) := by
      refine (((hA.pow t.1.val).mul (hB.pow t.2.val)).mul (hC.pow s.val)).congr ?_
      rw [translate_iter hk, translate_iter hk, turn_motion_iter hk, motion_comp hk, motion_comp hk]
      congr 1
      · simp
      · simp only [add_zero, ZMod.val_zero, Nat.mul_zero, Function.iterate_zero, id]
        ext <;> simp
    rw [h.unique key]
    have hp : ∀ X ∈ [A, B, C], ∀ m : ℕ, Generated [] [A, B, C] (X ^ m) := by
      intro X hX m
      induction m with
      | zero => rw [pow_zero]; exact .one
      | succ m ih => rw [pow_succ]; exact .mul ih (.gen hX)
    exact .mul (.mul (hp A (by simp) _) (hp B (by simp) _)) (hp C (by simp) _)

/-- **C63, composition.** The translation of the first motion is turned by the second: the semidirect product. -/
theorem C63_semidirect (hk : k = 2 ∨ k = 4) (s s' : ZMod k) (t t' : Pixel n) (p : Site k n) :
    motion s t (motion s' t' p) = motion (s + s') (turn0^[4 / k * s.val] t' + t) p := congrFun (motion_comp hk s s' t t') p

/-- **C63.** Exactly one motion takes a site to another. -/
theorem C63_simply_transitive (p q : Site k n) : ∃! st : ZMod k × Pixel n, motion st.1 st.2 p = q := by
  refine ⟨(q.1 - p.1, q.2 - turn^[4 / k * (q.1 - p.1).val] p.2), ?_, ?_⟩
  · simp [motion]
  · rintro ⟨s, t⟩ h
    simp only [motion, Prod.ext_iff] at h
    obtain ⟨h1, h2⟩ := h
    have e1 : s = q.1 - p.1 := by rw [← h1]; ring
    subst e1
    refine Prod.ext rfl ?_
    show t = _
    rw [eq_sub_iff_add_eq', Prod.ext_iff]
    exact h2

/-- **C63.** The group has `k n²` elements. -/
theorem C63_order (hk : k = 2 ∨ k = 4) : ∃ G, zksznGroup k n = .ok G ∧
    Nat.card {M : Matrix (Fin (k * (n * n))) (Fin (k * (n * n))) ℝ // Generated [] (G.disc.map (denseGen (k * (n * n)))) M} = k * (n * n) := by
  obtain ⟨G, h1, -, -, h2⟩ := C63_motions (k := k) (n := n) hk
  refine ⟨G, h1, ?_⟩
  have hex : ∀ st : Site k n, ∃ M, Moves M (motion st.1 st.2) := fun st => exists_moves _
  choose F hF using hex
  have : Function.Bijective (fun st : Site k n => (⟨F st, (h2 _).2 ⟨st.1, st.2, hF st⟩⟩ :
      {M : Matrix (Fin (k * (n * n))) (Fin (k * (n * n))) ℝ // Generated [] (G.disc.map (denseGen (k * (n * n)))) M})) := by
    constructor
    · intro a b hab
      have hab : F a = F b := congrArg Subtype.val hab
      have ha := moves_iff.1 (hF a)
      have hb := moves_iff.1 (hF b)
      have e : motion a.1 a.2 0 = motion b.1 b.2 (0 : Site k n) := by
        have := ha 0 (motion a.1 a.2 0)
        rw [hab, hb, if_pos rfl] at this
        by_contra hne
        rw [if_neg hne] at this
        exact zero_ne_one this
      exact (C63_simply_transitive (0 : Site k n) (motion b.1 b.2 0)).unique e rfl
    · rintro ⟨M, hM⟩
      obtain ⟨s, t, h⟩ := (h2 M).1 hM
      exact ⟨(s, t), Subtype.ext ((hF (s, t)).unique h)⟩
  rw [← Nat.card_congr (Equiv.ofBijective _ this), Nat.card_eq_fintype_card]
  simp [Pixel, ZMod.card]

theorem commute_iff (h : Moves M f) (hf : Function.Bijective f) :
    N * M = M * N ↔ ∀ p q, N (siteEquiv k n (f q)) (siteEquiv k n (f p)) = N (siteEquiv k n q) (siteEquiv k n p) := by
  rw [moves_iff] at h
  have e1 : ∀ p q, (N * M) (siteEquiv k n q) (siteEquiv k n p) = N (siteEquiv k n q) (siteEquiv k n (f p)) := by
    intro p q
    rw [Matrix.mul_apply, ← (siteEquiv k n).sum_comp]
    simp only [h, mul_ite, mul_one, mul_zero]
    rw [Finset.sum_ite_eq' Finset.univ (f p), if_pos (Finset.mem_univ _)]
  have e2 : ∀ p q, (M * N) (siteEquiv k n (f q)) (siteEquiv k n p) = N (siteEquiv k n q) (siteEquiv k n p) := by
    intro p q
    rw [Matrix.mul_apply, ← (siteEquiv k n).sum_comp]
    simp only [h, hf.1.eq_iff, ite_mul, one_mul, zero_mul]
    rw [Finset.sum_ite_eq Finset.univ q, if_pos (Finset.mem_univ _)]
  constructor
  · intro hc p q
    rw [← e1, hc, e2]
  · intro hc
    ext i j
    obtain ⟨q, rfl⟩ := (siteEquiv k n).surjective i
    obtain ⟨p, rfl⟩ := (siteEquiv k n).surjective j
    obtain ⟨q, rfl⟩ := hf.2 q
    rw [e1, e2, hc]

/-- **C63, convolutions.** The matrices that commute with the generators, which are the weights of the equivariant linear layers from signals to
signals, are the group convolutions: one filter for each difference of orientations, turned along with the orientation of the input. -/
theorem C63_convolution (hk : k = 2 ∨ k = 4) : ∃ G, zksznGroup k n = .ok G ∧ ∀ W : Matrix (Fin (k * (n * n))) (Fin (k * (n * n))) ℝ,
    (∀ h ∈ G.disc.map (denseGen (k * (n * n))), W * h = h * W) ↔
      ∃ ψ : ZMod k → Pixel n → ℝ, ∀ (a b : ZMod k) (x y : Pixel n),
        W ⟨sitePos (b, y), sitePos_lt _⟩ ⟨sitePos (a, x), sitePos_lt _⟩ = ψ (b - a) (turn0^[4 / k * (-a).val] (y - x)) := by
  obtain ⟨G, h1, -, -, A, B, C, h4, hA, hB, hC⟩ := zkszn_gens (k := k) (n := n) hk
  refine ⟨G, h1, fun W => ?_⟩
  have hbij : ∀ (s : ZMod k) (t : Pixel n), Function.Bijective (motion s t) := by
    intro s t
    have hs : ∀ (s : ZMod k) (t : Pixel n), Function.Surjective (motion s t) := fun s t => by
      obtain ⟨s', t', e⟩ := motion_inv hk s t
      exact fun y => ⟨motion s' t' y, congrFun e y⟩
    exact Finite.injective_iff_bijective.1 (Finite.injective_iff_surjective.2 (hs s t))
  have hsteps : ∀ (s s' : ZMod k) (x : Pixel n), turn0^[4 / k * s.val] (turn0^[4 / k * s'.val] x) = turn0^[4 / k * (s + s').val] x := by
    intro s s' x
    rw [← Function.iterate_add_apply, ← Nat.mul_add, turn0_mod, ← steps_mod hk, ← ZMod.val_add, ← turn0_mod]
  have hsub : ∀ (m : ℕ) (x y : Pixel n), turn^[m] y - turn^[m] x = turn0^[m] (y - x) := by
    intro m x y
    rw [sub_eq_iff_eq_add', ← turn_iter_add, add_sub_cancel]
  rw [h4]
  constructor
  · intro h
    have iA := (commute_iff hA (hbij _ _)).1 (h A (by simp))
    have iB := (commute_iff hB (hbij _ _)).1 (h B (by simp))
    have iC := (commute_iff hC (hbij _ _)).1 (h C (by simp))
    have iter : ∀ (f : Site k n → Site k n), (∀ p q, W (siteEquiv k n (f q)) (siteEquiv k n (f p)) = W (siteEquiv k n q) (siteEquiv k n p)) →
        ∀ (m : ℕ) p q, W (siteEquiv k n (f^[m] q)) (siteEquiv k n (f^[m] p)) = W (siteEquiv k n q) (siteEquiv k n p) := by
      intro f hf m
      induction m with
      | zero => intro p q; rfl
      | succ m ih => intro p q; rw [Function.iterate_succ_apply, Function.iterate_succ_apply, ih, hf]
    have inv : ∀ (s : ZMod k) (t : Pixel n) p q, W (siteEquiv k n (motion s t q)) (siteEquiv k n (motion s t p)) = W (siteEquiv k n q) (siteEquiv k n p) := by
      intro s t p q
      have e : motion s t = (motion (0 : ZMod k) ((1, 0) : Pixel n))^[t.1.val] ∘ (motion (0 : ZMod k) ((0, 1) : Pixel n))^[t.2.val] ∘ (motion (1 : ZMod k) (0 : Pixel n))^[s.val] := by
        rw [translate_iter hk, translate_iter hk, turn_motion_iter hk, motion_comp hk, motion_comp hk]
        congr 1
        · simp
        · simp only [add_zero, ZMod.val_zero, Nat.mul_zero, Function.iterate_zero, id]
          ext <;> simp
      rw [e]
      simp only [Function.comp]
      rw [iter _ iA, iter _ iB, iter _ iC]
    refine ⟨fun c z => W (siteEquiv k n (c, z)) (siteEquiv k n (0, 0)), fun a b x y => ?_⟩
    show W (siteEquiv k n (b, y)) (siteEquiv k n (a, x)) = _
    rw [← inv (-a) (-turn^[4 / k * (-a).val] x) (a, x) (b, y)]
    simp only [motion]
    rw [add_neg_cancel, add_neg_cancel, ← sub_eq_add_neg, ← sub_eq_add_neg, hsub]
  · rintro ⟨ψ, hψ⟩
    have hψ : ∀ (a b : ZMod k) (x y : Pixel n), W (siteEquiv k n (b, y)) (siteEquiv k n (a, x)) = ψ (b - a) (turn0^[4 / k * (-a).val] (y - x)) := hψ
    have inv : ∀ (s : ZMod k) (t : Pixel n) p q, W (siteEquiv k n (motion s t q)) (siteEquiv k n (motion s t p)) = W (siteEquiv k n q) (siteEquiv k n p) := by
      rintro s t ⟨a, x⟩ ⟨b, y⟩
      simp only [motion]
      rw [hψ, hψ, add_sub_add_right_eq_sub, add_sub_add_right_eq_sub, hsub, hsteps]
      congr 4
      ring
    intro h hh
    simp only [mem_cons, not_mem_nil, or_false] at hh
    rcases hh with rfl | rfl | rfl
    · exact (commute_iff hA (hbij _ _)).2 (inv _ _)
    · exact (commute_iff hB (hbij _ _)).2 (inv _ _)
    · exact (commute_iff hC (hbij _ _)).2 (inv _ _)

/-- **C63, number of weights.** An equivariant linear layer from signals to signals has `k n²` free weights: the matrices that commute with the
generators form a space of that dimension. -/
theorem C63_weights (hk : k = 2 ∨ k = 4) : ∃ G, zksznGroup k n = .ok G ∧ ∃ S : Submodule ℝ (Matrix (Fin (k * (n * n))) (Fin (k * (n * n))) ℝ),
    (∀ W, W ∈ S ↔ ∀ h ∈ G.disc.map (denseGen (k * (n * n))), W * h = h * W) ∧ Module.finrank ℝ S = k * (n * n) := by
  obtain ⟨G, h1, h2⟩ := C63_convolution (k := k) (n := n) hk
  refine ⟨G, h1, ⟨⟨⟨{W | ∀ h ∈ G.disc.map (denseGen (k * (n * n))), W * h = h * W}, ?_⟩, ?_⟩, ?_⟩, fun W => Iff.rfl, ?_⟩
  · intro A B hA hB h hh
    rw [add_mul, mul_add, hA h hh, hB h hh]
  · intro h hh
    rw [zero_mul, mul_zero]
  · intro c A hA h hh
    rw [smul_mul_assoc, mul_smul_comm, hA h hh]
  · have key : ∀ ψ : Site k n → ℝ, ∀ h ∈ G.disc.map (denseGen (k * (n * n))),
        (Matrix.of fun i j => ψ (((siteEquiv k n).symm i).1 - ((siteEquiv k n).symm j).1,
          turn0^[4 / k * (-((siteEquiv k n).symm j).1).val] (((siteEquiv k n).symm i).2 - ((siteEquiv k n).symm j).2))) * h
        = h * (Matrix.of fun i j => ψ (((siteEquiv k n).symm i).1 - ((siteEquiv k n).symm j).1,
          turn0^[4 / k * (-((siteEquiv k n).symm j).1).val] (((siteEquiv k n).symm i).2 - ((siteEquiv k n).symm j).2))) := by
      intro ψ
      refine (h2 _).2 ⟨fun c z => ψ (c, z), fun a b x y => ?_⟩
      show Matrix.of _ (siteEquiv k n (b, y)) (siteEquiv k n (a, x)) = _
      simp only [Matrix.of_apply, Equiv.symm_apply_apply]
    rw [(LinearEquiv.ofBijective (M₂ := Site k n → ℝ)
      { toFun := fun W p => W.1 (siteEquiv k n p) (siteEquiv k n (0, 0)), map_add' := fun _ _ => rfl, map_smul' := fun _ _ => rfl } ⟨?_, ?_⟩).finrank_eq]
    · simp [Pixel, ZMod.card]
    · rintro ⟨W, hW⟩ ⟨W', hW'⟩ e
      have e : ∀ p, W (siteEquiv k n p) (siteEquiv k n (0, 0)) = W' (siteEquiv k n p) (siteEquiv k n (0, 0)) := fun p => congrFun e p
      obtain ⟨ψ, hψ⟩ := (h2 W).1 hW
      obtain ⟨ψ', hψ'⟩ := (h2 W').1 hW'
      have hψ : ∀ (a b : ZMod k) (x y : Pixel n), W (siteEquiv k n (b, y)) (siteEquiv k n (a, x)) = ψ (b - a) (turn0^[4 / k * (-a).val] (y - x)) := hψ
      have hψ' : ∀ (a b : ZMod k) (x y : Pixel n), W' (siteEquiv k n (b, y)) (siteEquiv k n (a, x)) = ψ' (b - a) (turn0^[4 / k * (-a).val] (y - x)) := hψ'
      have eψ : ∀ c z, ψ c z = ψ' c z := by
        intro c z
        have := e (c, z)
        rw [hψ, hψ'] at this
        simpa using this
      refine Subtype.ext ?_
      ext i j
      obtain ⟨q, rfl⟩ := (siteEquiv k n).surjective i
      obtain ⟨p, rfl⟩ := (siteEquiv k n).surjective j
      exact (hψ p.1 q.1 p.2 q.2).trans ((eψ _ _).trans (hψ' p.1 q.1 p.2 q.2).symm)
    · intro ψ
      refine ⟨⟨_, key ψ⟩, ?_⟩
      funext p
      show Matrix.of _ _ _ = _
      simp

/-- **C63.** Any other `k` is refused with an `AssertionError`. -/
theorem C63_refused (k n : ℕ) (hk : k ≠ 2) (hk' : k ≠ 4) : zksznGroup k n = .error .assertion := by
  unfold zksznGroup
  rw [if_neg (by omega)]
  rfl

/-- The hypotheses are met by quarter turns of a 3 × 3 grid, where the turn moves pixels and does not commute with the translations. -/
example : ∃ G, zksznGroup 4 3 = .ok G ∧ G.d = some 36 ∧
    Nat.card {M : Matrix (Fin (4 * (3 * 3))) (Fin (4 * (3 * 3))) ℝ // Generated [] (G.disc.map (denseGen (4 * (3 * 3)))) M} = 36 := by
  obtain ⟨G, h1, h2⟩ := C63_order (k := 4) (n := 3) (.inr rfl)
  obtain ⟨G', h1', h3, -⟩ := C63_motions (k := 4) (n := 3) (.inr rfl)
  cases h1.symm.trans h1'
  exact ⟨G, h1, h3, h2⟩

example : motion (k := 4) (n := 3) 1 (0, 0) (motion 0 (1, 0) (0, (0, 0))) = (1, (2, 1)) ∧
    motion (k := 4) (n := 3) 0 (1, 0) (motion 1 (0, 0) (0, (0, 0))) = (1, (0, 0)) := by decide

/-- Eight weights for half turns of a 2 × 2 grid. -/
example : ∃ G, zksznGroup 2 2 = .ok G ∧ ∃ S : Submodule ℝ (Matrix (Fin (2 * (2 * 2))) (Fin (2 * (2 * 2))) ℝ),
    (∀ W, W ∈ S ↔ ∀ h ∈ G.disc.map (denseGen (2 * (2 * 2))), W * h = h * W) ∧ Module.finrank ℝ S = 8 := C63_weights (.inl rfl)

example : zksznGroup 3 5 = .error .assertion := C63_refused 3 5 (by decide) (by decide)

end
end Verif
