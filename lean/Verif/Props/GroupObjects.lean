import Mathlib.Analysis.SpecialFunctions.Trigonometric.Angle
import Verif.Lemmas.PermGen
import Verif.Lemmas.KronExp

/-!
# Group objects: flags, permutation groups, plane groups, products and embeddings
-/
namespace Verif
open Matrix List

/-- `Group.__init__` without preset flags. -/
theorem groupInit_eq (d : Option ℕ) (lie disc : Option (List (LinOp ℝ))) : groupInit d lie disc none none =
    if groupDim d lie disc = none ∧ (lie = none ∨ disc = none) then .error .type else
    .ok ⟨groupDim d lie disc, lie.getD [], disc.getD [], orthFlag ((groupDim d lie disc).getD 0) (lie.getD []) (disc.getD []),
      if orthFlag ((groupDim d lie disc).getD 0) (lie.getD []) (disc.getD []) then
        some (permFlag ((groupDim d lie disc).getD 0) (lie.getD []) (disc.getD [])) else none⟩ := by
  rw [groupInit]
  by_cases h : groupDim d lie disc = none ∧ (lie = none ∨ disc = none)
  · simp only [h, true_and, if_true]
    rfl
  · simp only [if_neg h, Option.isNone_none, Bool.and_true]
    rfl

/-- Shape of the result of `Group.__init__` for a group given by discrete generators only. -/
theorem groupInit_disc (h : LinOp ℝ) (t : List (LinOp ℝ)) : groupInit none none (some (h :: t)) none none =
    .ok ⟨some h.sem.cols, [], h :: t, orthFlag h.sem.cols [] (h :: t),
      if orthFlag h.sem.cols [] (h :: t) then some (permFlag h.sem.cols [] (h :: t)) else none⟩ := by
  rw [groupInit_eq, if_neg (by simp [groupDim])]
  rfl

/-- C54: `S(n)` (`n ≥ 2`) has the `n-1` transpositions of `0` with `i` as generators, and these generate exactly
the permutation matrices of size `n`. -/
theorem C54_symmetric (n : ℕ) (hn : 2 ≤ n) : ∃ G, symGroup n = .ok G ∧ G.d = some n ∧ G.lie = [] ∧
    (∃ hl : G.disc.length = n - 1, ∀ i (hi : i < n - 1),
      denseGen n (G.disc[i]) = (Equiv.swap (⟨0, by omega⟩ : Fin n) ⟨i + 1, by omega⟩).permMatrix ℝ) ∧
    ∀ g, Generated [] (G.disc.map (denseGen n)) g ↔ ∃ σ : Equiv.Perm (Fin n), g = σ.permMatrix ℝ := by
  have hc : ∃ h t, (symGens n).map LinOp.perm = h :: t ∧ (h : LinOp ℝ).sem.cols = n := by
    obtain ⟨m, rfl⟩ : ∃ m, n = m + 2 := ⟨n - 2, by omega⟩
    refine ⟨.perm (((range (m + 2)).set 0 (0 + 1)).set (0 + 1) 0),
      ((range m).map fun i => (((range (m + 2)).set 0 (i + 1 + 1)).set (i + 1 + 1) 0)).map .perm, ?_, ?_⟩
    · simp only [symGens, Nat.add_sub_cancel, show m + 2 - 1 = m + 1 by omega, List.map_map]
      rw [List.range_succ_eq_map (n := m), map_cons, List.map_map]
      rfl
    · simp [LinOp.sem, DMat.permMat]
  obtain ⟨h, t, e, hcols⟩ := hc
  have hdisc : ∀ i (hi : i < n - 1), denseGen n (.perm (((range n).set 0 (i + 1)).set (i + 1) 0)) = pm (Equiv.swap (⟨0, by omega⟩ : Fin n) ⟨i + 1, by omega⟩) :=
    fun i hi => dense_symGen (by omega)
  refine ⟨_, by rw [symGroup, e]; exact groupInit_disc h t, ?_, rfl, ?_, ?_⟩
  · simp [hcols]
  · simp only [← e]
    refine ⟨by simp [symGens], fun i hi => ?_⟩
    simp only [symGens, List.map_map, getElem_map, getElem_range, Function.comp]
    exact hdisc i hi
  · intro g
    simp only [← e]
    constructor
    · intro hg
      refine Generated.perm_of ?_ hg
      intro x hx
      obtain ⟨y, hy, rfl⟩ := mem_map.1 hx
      obtain ⟨p, hp, rfl⟩ := mem_map.1 hy
      obtain ⟨i, hi, rfl⟩ := mem_map.1 hp
      exact ⟨_, hdisc i (mem_range.1 hi)⟩
    · rintro ⟨σ, rfl⟩
      refine Generated.sym (by omega) (fun i hi => ?_) σ
      rw [← hdisc i (by omega)]
      exact mem_map_of_mem (mem_map_of_mem (mem_map.2 ⟨i, by simp; omega, rfl⟩))

theorem shift_pow (n : ℕ) (hn : 0 < n) (k : ℕ) (i j : Fin n) :
    (denseGen n (.shift n 1) ^ k) i j = if (j.val + k) % n = i.val then 1 else 0 := by
  induction k generalizing i with
  | zero =>
    rw [pow_zero, Matrix.one_apply, Nat.add_zero, Nat.mod_eq_of_lt j.2]
    congr 1
    rw [Fin.ext_iff]
    exact propext eq_comm
  | succ k ih =>
    rw [pow_succ', Matrix.mul_apply]
    have h1 : ∀ x : Fin n, denseGen n (.shift n 1) i x = if (x.val + 1) % n = i.val then 1 else 0 := by
      intro x
      simp only [denseGen, of_apply, LinOp.sem, DMat.shiftMat]
      rw [DMat.of_e i.2 x.2]
    simp only [ih, h1]
    rw [Finset.sum_eq_single (⟨(j.val + k) % n, Nat.mod_lt _ hn⟩ : Fin n)]
    · simp only [if_true, mul_one]
      congr 1
      rw [Nat.mod_add_mod, ← add_assoc]
    · intro b _ hb
      rw [if_neg (c := (j.val + k) % n = b.val), mul_zero]
      exact fun h => hb (Fin.ext h.symm)
    · simp

/-- C54: `Z(n)` (`n ≥ 1`) has one generator, which shifts coordinates cyclically by one and has order exactly `n`. -/
theorem C54_cyclic (n : ℕ) (hn : 0 < n) : ∃ G, shiftGroup n = .ok G ∧ G.d = some n ∧ G.lie = [] ∧ ∃ A, G.disc = [A] ∧
    (∀ (v : Fin n → ℝ) (i : Fin n), (denseGen n A).mulVec v i = v ⟨(i.val + (n - 1)) % n, Nat.mod_lt _ hn⟩) ∧
    ∀ k, denseGen n A ^ k = 1 ↔ n ∣ k := by
  refine ⟨_, groupInit_disc _ _, rfl, rfl, _, rfl, ?_, ?_⟩
  · intro v i
    have h := shift_pow n hn 1 i
    simp only [pow_one] at h
    simp only [Matrix.mulVec, dotProduct, h]
    rw [Finset.sum_eq_single ⟨(i.val + (n - 1)) % n, Nat.mod_lt _ hn⟩]
    · rw [if_pos, one_mul]
      simp only
      rw [Nat.mod_add_mod, show i.val + (n - 1) + 1 = i.val + n by omega, Nat.add_mod_right, Nat.mod_eq_of_lt i.2]
    · intro b _ hb
      rw [if_neg, zero_mul]
      intro h1
      apply hb
      ext
      simp only
      rw [← h1, Nat.mod_add_mod, show b.val + 1 + (n - 1) = b.val + n by omega, Nat.add_mod_right, Nat.mod_eq_of_lt b.2]
    · simp
  · intro k
    constructor
    · intro h
      have h0 := congrFun (congrFun h ⟨0, hn⟩) ⟨0, hn⟩
      rw [shift_pow n hn, Matrix.one_apply_eq] at h0
      by_contra hk
      rw [if_neg] at h0
      · exact zero_ne_one h0
      · simpa [Nat.dvd_iff_mod_eq_zero] using hk
    · intro h
      ext i j
      rw [shift_pow n hn, Matrix.one_apply]
      congr 1
      rw [Nat.add_mod, Nat.mod_eq_zero_of_dvd h, Nat.add_zero, Nat.mod_mod, Nat.mod_eq_of_lt j.2, Fin.ext_iff]
      exact propext eq_comm

/-- C55: if the discrete generators are orthogonal, the group has no Lie algebra and the row test of the
permutation flag succeeds, then every generator and every sample is a permutation matrix. -/
theorem C55_permutation_flag {d : ℕ} (hs : List (Matrix (Fin d) (Fin d) ℝ)) (ho : ∀ h ∈ hs, hᵀ * h = 1) (hf : rowsOneOne hs = true) :
    (∀ h ∈ hs, ∃ σ : Equiv.Perm (Fin d), h = σ.permMatrix ℝ) ∧
    ∀ (ks : List (List ℤ)) (orders : List (List ℕ)), (∀ o ∈ orders, ∀ i ∈ o, i < hs.length) →
      ∃ σ : Equiv.Perm (Fin d), noise2sample [] ks [] hs orders = σ.permMatrix ℝ := by
  have h1 : ∀ h ∈ hs, ∃ σ : Equiv.Perm (Fin d), h = pm σ := by
    intro h hh
    simp only [rowsOneOne, decide_eq_true_eq] at hf
    exact perm_of_orth (ho h hh) (fun i => by convert hf h hh i)
  exact ⟨h1, fun ks orders hord => Generated.perm_of h1 (sample_generated [] ks orders hord)⟩

/-- Conversely permutation matrices are flagged. -/
theorem C55_converse {d : ℕ} (hs : List (Matrix (Fin d) (Fin d) ℝ)) (hp : ∀ h ∈ hs, ∃ σ : Equiv.Perm (Fin d), h = σ.permMatrix ℝ) :
    (∀ h ∈ hs, hᵀ * h = 1) ∧ rowsOneOne hs = true := by
  constructor
  · intro h hh
    obtain ⟨σ, rfl⟩ := hp h hh
    exact pm_orth σ
  · simp only [rowsOneOne, decide_eq_true_eq]
    intro h hh i
    obtain ⟨σ, rfl⟩ := hp h hh
    convert pm_row σ i

example : ∃ hs : List (Matrix (Fin 3) (Fin 3) ℝ), hs ≠ [] ∧ (∀ h ∈ hs, hᵀ * h = 1) ∧ rowsOneOne hs = true :=
  ⟨[(Equiv.swap (0 : Fin 3) 1).permMatrix ℝ], by simp, C55_converse _ (by simpa using ⟨_, rfl⟩)⟩

theorem meanAbs_zero {d : ℕ} {As : List (Matrix (Fin d) (Fin d) ℝ)} (h : ∀ A ∈ As, A = 0) : meanAbs As = 0 := by
  unfold meanAbs
  rw [List.sum_eq_zero, zero_div]
  intro x hx
  obtain ⟨A, hA, rfl⟩ := mem_map.1 hx
  simp [h A hA]

theorem meanAbs_nonneg {d : ℕ} (As : List (Matrix (Fin d) (Fin d) ℝ)) : 0 ≤ meanAbs As := by
  unfold meanAbs
  refine div_nonneg (List.sum_nonneg ?_) (by positivity)
  intro x hx
  obtain ⟨A, hA, rfl⟩ := mem_map.1 hx
  positivity

/-- C56, one direction: if every Lie algebra generator is antisymmetric and every discrete generator orthogonal then
the flag is set. -/
theorem C56_orthogonal_is_flagged (d : ℕ) (lie disc : List (LinOp ℝ)) (hl : ∀ A ∈ lie, (denseGen d A)ᵀ = -denseGen d A)
    (hd : ∀ h ∈ disc, (denseGen d h)ᵀ * denseGen d h = 1) : orthFlag d lie disc = true := by
  have h1 : relErrLie (lie.map (denseGen d)) = 0 := by
    unfold relErrLie
    rw [meanAbs_zero, zero_div]
    intro A hA
    rw [List.map_map] at hA
    obtain ⟨B, hB, rfl⟩ := mem_map.1 hA
    simp [hl B hB]
  have h2 : relErrDisc (disc.map (denseGen d)) = 0 := by
    unfold relErrDisc
    rw [meanAbs_zero, zero_div]
    intro A hA
    rw [List.map_map] at hA
    obtain ⟨B, hB, rfl⟩ := mem_map.1 hA
    simp [hd B hB]
  simp only [orthFlag, h1, h2, Bool.and_eq_true, Bool.or_eq_true, decide_eq_true_eq]
  exact ⟨Or.inr (by norm_num), Or.inr (by norm_num)⟩

theorem dense_ofMatrix {n : ℕ} (A : Matrix (Fin n) (Fin n) ℝ) : denseGen n (ofMatrix A) = A := by
  ext i j
  simp only [denseGen, ofMatrix, LinOp.sem, of_apply]
  rw [DMat.of_e i.2 j.2, dif_pos ⟨i.2, j.2⟩]

/-- C56 fails in the other direction: the test is a relative error with an absolute term in the denominator, so a
small generator that is not antisymmetric passes it. -/
theorem C56_counterexample : ∃ G, groupInit none (some [ofMatrix !![(1e-13 : ℝ)]]) none none none = .ok G ∧ G.isOrth = true ∧
    ∃ A ∈ G.lie, (denseGen 1 A)ᵀ ≠ -denseGen 1 A := by
  refine ⟨_, rfl, ?_, ofMatrix !![(1e-13 : ℝ)], by simp, ?_⟩
  · show orthFlag 1 [ofMatrix !![(1e-13 : ℝ)]] [] = true
    simp only [orthFlag, Bool.and_eq_true, Bool.or_eq_true, decide_eq_true_eq, map_cons, map_nil, dense_ofMatrix]
    refine ⟨Or.inr ?_, Or.inl rfl⟩
    simp only [relErrLie, meanAbs, map_cons, map_nil, List.sum_cons, List.sum_nil, length_cons, length_nil, Fin.sum_univ_one,
      Matrix.sub_apply, Matrix.neg_apply, transpose_apply]
    norm_num [abs_of_pos, abs_of_neg]
  · rw [dense_ofMatrix]
    intro h
    have := congrFun (congrFun h 0) 0
    norm_num at this

theorem sum_abs_le {d : ℕ} {As : List (Matrix (Fin d) (Fin d) ℝ)} {c : ℝ} (h : ∀ A ∈ As, ∀ i j, |A i j| ≤ c) :
    (As.map fun A => ∑ i, ∑ j, |A i j|).sum ≤ As.length * d * d * c := by
  induction As with
  | nil => simp
  | cons A As ih =>
    rw [map_cons, List.sum_cons, length_cons]
    have h1 : ∑ i, ∑ j, |A i j| ≤ d * d * c := by
      calc ∑ i, ∑ j, |A i j| ≤ ∑ _i : Fin d, ∑ _j : Fin d, c := Finset.sum_le_sum fun i _ => Finset.sum_le_sum fun j _ => h A (by simp) i j
        _ = d * d * c := by simp; ring
    have h2 := ih fun B hB => h B (by simp [hB])
    push_cast
    nlinarith

theorem one_le_sum_abs {d : ℕ} {As : List (Matrix (Fin d) (Fin d) ℝ)} (hi : ∀ A ∈ As, ∀ i j, ∃ n : ℤ, A i j = n)
    (hne : ∃ A ∈ As, A ≠ 0) : 1 ≤ (As.map fun A => ∑ i, ∑ j, |A i j|).sum := by
  obtain ⟨A, hA, hA0⟩ := hne
  have : ∃ i j, A i j ≠ 0 := by
    by_contra hc
    push Not at hc
    exact hA0 (by ext i j; exact hc i j)
  obtain ⟨i, j, hij⟩ := this
  obtain ⟨n, hn⟩ := hi A hA i j
  have h1 : (1 : ℝ) ≤ |A i j| := by
    rw [hn] at hij ⊢
    have : n ≠ 0 := by rintro rfl; simp at hij
    exact_mod_cast Int.one_le_abs this
  refine h1.trans (le_trans ?_ (List.single_le_sum (l := As.map fun A => ∑ i, ∑ j, |A i j|) ?_ _ (mem_map_of_mem hA)))
  · exact (Finset.single_le_sum (f := fun j => |A i j|) (fun _ _ => abs_nonneg _) (Finset.mem_univ j)).trans
      (Finset.single_le_sum (f := fun i => ∑ j, |A i j|) (fun _ _ => by positivity) (Finset.mem_univ i))
  · intro x hx
    obtain ⟨B, _, rfl⟩ := mem_map.1 hx
    positivity

/-- C56, partial converse: for generators with entries in `{-1,0,1}` (all groups of the library but `C`, `D`, `SU`) and
moderate sizes, the flag is set only if all Lie algebra generators are antisymmetric and all discrete generators
orthogonal.  Missing: other entries, for which the counterexample above applies. -/
theorem C56_flag_partial (d : ℕ) (lie disc : List (LinOp ℝ))
    (hl : ∀ A ∈ lie, ∀ i j, denseGen d A i j ∈ ({-1, 0, 1} : Set ℝ)) (hd : ∀ A ∈ disc, ∀ i j, denseGen d A i j ∈ ({-1, 0, 1} : Set ℝ))
    (hs1 : lie.length * d * d ≤ 400000) (hs2 : disc.length * d * d * (d + 1) ≤ 400000) (hf : orthFlag d lie disc = true) :
    (∀ A ∈ lie, (denseGen d A)ᵀ = -denseGen d A) ∧ ∀ h ∈ disc, (denseGen d h)ᵀ * denseGen d h = 1 := by
  simp only [orthFlag, Bool.and_eq_true, Bool.or_eq_true, decide_eq_true_eq, beq_iff_eq] at hf
  have hint : ∀ x : ℝ, x ∈ ({-1, 0, 1} : Set ℝ) → ∃ n : ℤ, x = n := by
    rintro x (rfl | rfl | rfl)
    · exact ⟨-1, by simp⟩
    · exact ⟨0, by simp⟩
    · exact ⟨1, by simp⟩
  have habs : ∀ x : ℝ, x ∈ ({-1, 0, 1} : Set ℝ) → |x| ≤ 1 := by
    rintro x (rfl | rfl | rfl) <;> simp
  constructor
  · rcases hf.1 with h0 | h0
    · rw [List.length_eq_zero_iff.1 h0]; simp
    · by_contra hc
      push Not at hc
      obtain ⟨A, hA, hAne⟩ := hc
      obtain ⟨As, hAs⟩ : ∃ As, As = lie.map (denseGen d) := ⟨_, rfl⟩
      rw [← hAs] at h0
      have hm : denseGen d A ∈ As := by rw [hAs]; exact mem_map_of_mem hA
      have hent : ∀ B ∈ As, ∀ i j, B i j ∈ ({-1, 0, 1} : Set ℝ) := by
        intro B hB
        rw [hAs] at hB
        obtain ⟨C, hC, rfl⟩ := mem_map.1 hB
        exact hl C hC
      have b1 := one_le_sum_abs (As := As.map fun A => -A.transpose - A) (by
        intro B hB i j
        obtain ⟨C, hC, rfl⟩ := mem_map.1 hB
        obtain ⟨n, hn⟩ := hint _ (hent C hC j i)
        obtain ⟨m, hm⟩ := hint _ (hent C hC i j)
        exact ⟨-n - m, by simp [hn, hm]⟩) ⟨_, mem_map_of_mem hm, fun h => hAne (by
          exact neg_eq_iff_eq_neg.1 (sub_eq_zero.1 h))⟩
      have b2 := sum_abs_le (As := As) (c := 1) fun B hB i j => habs _ (hent B hB i j)
      have b3 := sum_abs_le (As := As.map fun A => -A.transpose) (c := 1) (by
        intro B hB i j
        obtain ⟨C, hC, rfl⟩ := mem_map.1 hB
        rw [Matrix.neg_apply, transpose_apply, abs_neg]
        exact habs _ (hent C hC j i))
      unfold relErrLie meanAbs at h0
      simp only [length_map, mul_one] at h0 b1 b2 b3
      have hN : (As.length : ℝ) * d * d ≤ 400000 := by
        have : As.length = lie.length := by rw [hAs, length_map]
        rw [this]
        exact_mod_cast hs1
      obtain ⟨N, hNe⟩ : ∃ N : ℝ, N = As.length * d * d := ⟨_, rfl⟩
      rw [← hNe] at h0 b2 b3 hN
      have hNpos : 0 < N := by linarith [b1.trans (sum_abs_le (As := As.map fun A => -A.transpose - A) (c := 2) (by
        intro B hB i j
        obtain ⟨C, hC, rfl⟩ := mem_map.1 hB
        have h1 := habs _ (hent C hC j i)
        have h2 := habs _ (hent C hC i j)
        rw [Matrix.sub_apply, Matrix.neg_apply, transpose_apply]
        rw [abs_le] at h1 h2 ⊢
        constructor <;> linarith)), show ((As.map fun A => -A.transpose - A).length : ℝ) * d * d * 2 = 2 * N by rw [length_map, hNe]; ring]
      rw [← add_div, div_add' _ _ _ hNpos.ne', div_div_div_cancel_right₀ hNpos.ne', div_lt_iff₀] at h0
      · generalize (List.map (fun A : Matrix (Fin d) (Fin d) ℝ => ∑ i, ∑ j, |A i j|) (List.map (fun A => -Aᵀ - A) As)).sum = s1 at *
        generalize (List.map (fun A : Matrix (Fin d) (Fin d) ℝ => ∑ i, ∑ j, |A i j|) (List.map (fun A => -Aᵀ) As)).sum = s2 at *
        generalize (List.map (fun A : Matrix (Fin d) (Fin d) ℝ => ∑ i, ∑ j, |A i j|) As).sum = s3 at *
        norm_num at h0
        linarith
      · have : (0 : ℝ) ≤ (List.map (fun A => ∑ i, ∑ j, |A i j|) (List.map (fun A => -Aᵀ) As)).sum := List.sum_nonneg (by
          intro x hx
          obtain ⟨B, _, rfl⟩ := mem_map.1 hx
          positivity)
        have : (0 : ℝ) ≤ (List.map (fun A => ∑ i, ∑ j, |A i j|) As).sum := List.sum_nonneg (by
          intro x hx
          obtain ⟨B, _, rfl⟩ := mem_map.1 hx
          positivity)
        positivity
  · rcases hf.2 with h0 | h0
    · rw [List.length_eq_zero_iff.1 h0]; simp
    · by_contra hc
      push Not at hc
      obtain ⟨A, hA, hAne⟩ := hc
      obtain ⟨As, hAs⟩ : ∃ As, As = disc.map (denseGen d) := ⟨_, rfl⟩
      rw [← hAs] at h0
      have hm : denseGen d A ∈ As := by rw [hAs]; exact mem_map_of_mem hA
      have hent : ∀ B ∈ As, ∀ i j, B i j ∈ ({-1, 0, 1} : Set ℝ) := by
        intro B hB
        rw [hAs] at hB
        obtain ⟨C, hC, rfl⟩ := mem_map.1 hB
        exact hd C hC
      have hd0 : 0 < d := by
        rcases Nat.eq_zero_or_pos d with rfl | h
        · exact absurd (by ext i; exact i.elim0) hAne
        · exact h
      have b1 := one_le_sum_abs (As := As.map fun h => h.transpose * h - 1) (by
        intro B hB i j
        obtain ⟨C, hC, rfl⟩ := mem_map.1 hB
        choose f hf using fun i j => hint _ (hent C hC i j)
        refine ⟨∑ k, f k i * f k j - if i = j then 1 else 0, ?_⟩
        rw [Matrix.sub_apply, Matrix.mul_apply, one_apply]
        push_cast
        simp [hf]) ⟨_, mem_map_of_mem hm, fun h => hAne (sub_eq_zero.1 h)⟩
      have b2 := sum_abs_le (As := As.map fun h => h.transpose * h) (c := d) (by
        intro B hB i j
        obtain ⟨C, hC, rfl⟩ := mem_map.1 hB
        rw [Matrix.mul_apply]
        refine (Finset.abs_sum_le_sum_abs _ _).trans ?_
        refine (Finset.sum_le_card_nsmul _ _ 1 fun k _ => ?_).trans (by simp)
        rw [transpose_apply, abs_mul]
        exact mul_le_one₀ (habs _ (hent C hC k i)) (abs_nonneg _) (habs _ (hent C hC k j)))
      have e1 : meanAbs [(1 : Matrix (Fin d) (Fin d) ℝ)] ≤ 1 := by
        have := sum_abs_le (As := [(1 : Matrix (Fin d) (Fin d) ℝ)]) (c := 1) (by
          intro B hB i j
          rw [mem_singleton] at hB
          rw [hB, one_apply]
          split_ifs <;> simp)
        unfold meanAbs
        rw [div_le_one (by simp; positivity)]
        linarith
      have e0 := meanAbs_nonneg [(1 : Matrix (Fin d) (Fin d) ℝ)]
      unfold relErrDisc at h0
      obtain ⟨m1, hm1⟩ : ∃ m, m = meanAbs [(1 : Matrix (Fin d) (Fin d) ℝ)] := ⟨_, rfl⟩
      rw [← hm1] at h0 e1 e0
      unfold meanAbs at h0
      simp only [length_map] at h0 b1 b2
      have hlen : As.length = disc.length := by rw [hAs, length_map]
      have hN : (As.length : ℝ) * d * d * (d + 1) ≤ 400000 := by
        rw [hlen]
        exact_mod_cast hs2
      have hNpos : 0 < (As.length : ℝ) * d * d := by
        have : 0 < As.length := length_pos_of_mem hm
        positivity
      obtain ⟨N, hNe⟩ : ∃ N : ℝ, N = As.length * d * d := ⟨_, rfl⟩
      rw [← hNe] at h0 b2 hN hNpos
      have hs0 : (0 : ℝ) ≤ (List.map (fun A => ∑ i, ∑ j, |A i j|) (List.map (fun h => hᵀ * h) As)).sum := List.sum_nonneg (by
          intro x hx
          obtain ⟨B, _, rfl⟩ := mem_map.1 hx
          positivity)
      rw [div_lt_iff₀ (by positivity), div_lt_iff₀ hNpos, mul_assoc, add_mul, add_mul, div_mul_cancel₀ _ hNpos.ne'] at h0
      have hp : m1 * N ≤ 1 * N := mul_le_mul_of_nonneg_right e1 hNpos.le
      generalize (List.map (fun A : Matrix (Fin d) (Fin d) ℝ => ∑ i, ∑ j, |A i j|) (List.map (fun h => hᵀ * h - 1) As)).sum = s1 at *
      generalize (List.map (fun A : Matrix (Fin d) (Fin d) ℝ => ∑ i, ∑ j, |A i j|) (List.map (fun h => hᵀ * h) As)).sum = s2 at *
      norm_num at h0
      generalize m1 * N = q at *
      nlinarith

example : ∃ lie : List (LinOp ℝ), lie ≠ [] ∧ (∀ A ∈ lie, ∀ i j, denseGen 2 A i j ∈ ({-1, 0, 1} : Set ℝ)) ∧ orthFlag 2 lie [] = true := by
  refine ⟨[ofMatrix !![0, 1; -1, 0]], by simp, ?_, C56_orthogonal_is_flagged 2 _ _ ?_ (by simp)⟩
  · simp only [mem_singleton, forall_eq, dense_ofMatrix]
    intro i j
    fin_cases i <;> fin_cases j <;> simp
  · simp only [mem_singleton, forall_eq, dense_ofMatrix]
    ext i j
    fin_cases i <;> fin_cases j <;> simp

end Verif
