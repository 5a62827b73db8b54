import Verif.Props.Commutants
import Verif.Props.CubeObjects
import Verif.Props.GridGroup

/-!
# C104: the equivariant linear maps `V → V` of the remaining groups; DeepSets and convolution layers
-/
namespace Verif
open List Matrix

theorem commute_pm {n : ℕ} {M : Matrix (Fin n) (Fin n) ℝ} {π : Equiv.Perm (Fin n)} : M * pm π = pm π * M ↔ ∀ i j, M (π i) (π j) = M i j := by
  have h1 : ∀ i j, (M * pm π) i (π j) = M i j := by
    intro i j
    rw [Matrix.mul_apply, Finset.sum_eq_single j, pm_apply, if_pos rfl, mul_one]
    · intro k _ hk
      rw [pm_apply, if_neg (fun h => hk (π.injective h)), mul_zero]
    · simp
  have h2 : ∀ i j, (pm π * M) i (π j) = M (π i) (π j) := by
    intro i j
    rw [Matrix.mul_apply, Finset.sum_eq_single (π i), pm_apply, if_pos rfl, one_mul]
    · intro k _ hk
      rw [pm_apply, if_neg (Ne.symm hk), zero_mul]
    · simp
  constructor
  · intro h i j
    rw [← h2, ← h, h1]
  · intro h
    ext i j
    obtain ⟨j, rfl⟩ := π.surjective j
    rw [h1, h2, h]

theorem pm_mulVec {n : ℕ} (π : Equiv.Perm (Fin n)) (v : Fin n → ℝ) (i : Fin n) : (pm π).mulVec v i = v (π i) := by
  rw [Matrix.mulVec, dotProduct, Finset.sum_eq_single (π i), pm_apply, if_pos rfl, one_mul]
  · intro k _ hk
    rw [pm_apply, if_neg (Ne.symm hk), zero_mul]
  · simp

/-- **C104.** `SO11p`: the matrices `[[x,y],[y,x]]`, two parameters. -/
theorem C104_so11p : (∀ M, M ∈ commutant ((so11pLie : Arr3 ℝ).mats 2) [] ↔ ∃ x y : ℝ, M = !![x, y; y, x]) ∧
    Module.finrank ℝ (commutant ((so11pLie : Arr3 ℝ).mats 2) []) = 2 := by
  have hm : (so11pLie : Arr3 ℝ).mats 2 = [!![0, 1; 1, 0]] := by
    simp only [Arr3.mats, so11pLie, show List.range 1 = [0] from rfl, map_cons, map_nil]
    congr 1
    ext i j
    fin_cases i <;> fin_cases j <;> simp
  rw [hm]
  have h1 : ∀ M, M ∈ commutant [!![0, 1; 1, 0]] [] ↔ ∃ x y : ℝ, M = !![x, y; y, x] := by
    intro M
    rw [mem_commutant]
    constructor
    · intro h
      have h1 := h.1 _ (mem_singleton_self _)
      rw [Matrix.eta_fin_two M] at h1 ⊢
      have h2 := congrFun (congrFun h1 0) 0
      have h3 := congrFun (congrFun h1 0) 1
      simp [Matrix.mul_apply, Fin.sum_univ_two] at h2 h3
      refine ⟨M 0 0, M 1 0, ?_⟩
      ext i j
      fin_cases i <;> fin_cases j <;> simp <;> linarith
    · rintro ⟨x, y, rfl⟩
      simp
  refine ⟨h1, commutant_finrank (c := 2)
    { toFun := fun v => !![v 0, v 1; v 1, v 0]
      map_add' := fun u v => by ext i j; fin_cases i <;> fin_cases j <;> simp
      map_smul' := fun c v => by ext i j; fin_cases i <;> fin_cases j <;> simp } ?_ fun M => ?_⟩
  · intro u v huv
    have h2 := congrFun (congrFun huv 0) 0
    have h3 := congrFun (congrFun huv 1) 0
    simp at h2 h3
    funext i
    fin_cases i
    · exact h2
    · exact h3
  · rw [h1]
    exact ⟨fun ⟨x, y, h⟩ => ⟨![x, y], h⟩, fun ⟨v, h⟩ => ⟨v 0, v 1, h⟩⟩

/-- **C104.** `O11`: only the multiples of the identity. -/
theorem C104_o11 : ∃ b : Arr3 ℝ, o11Disc = .ok b ∧ (∀ M, M ∈ commutant (so11pLie.mats 2) (b.mats 2) ↔ ∃ c : ℝ, M = c • 1) ∧
    Module.finrank ℝ (commutant (so11pLie.mats 2) (b.mats 2)) = 1 := by
  obtain ⟨b, hb, hm⟩ := C51_o11_generators
  refine ⟨b, hb, commutant_scalar two_pos fun M hM => ?_⟩
  rw [mem_commutant, hm] at hM
  obtain ⟨x, y, rfl⟩ := (C104_so11p.1 M).1 (mem_commutant.2 ⟨hM.1, by simp⟩)
  have h1 := congrFun (congrFun (hM.2 !![-1, 0; 0, 1] (by simp)) 0) 1
  simp [Matrix.mul_apply, Fin.sum_univ_two] at h1
  have h2 : y = 0 := by linarith
  refine ⟨x, ?_⟩
  ext i j
  fin_cases i <;> fin_cases j <;> simp [h2]

theorem finrank_all {n : ℕ} {lie disc : List (Matrix (Fin n) (Fin n) ℝ)} (h : ∀ M, M ∈ commutant lie disc) :
    Module.finrank ℝ (commutant lie disc) = n * n := by
  rw [(Submodule.eq_top_iff').2 h, finrank_top, Module.finrank_matrix]
  simp

/-- **C104.** `Trivial(n)` and `Scaling(n)`: all matrices. -/
theorem C104_unconstrained (n : ℕ) :
    (∃ G, trivialGroup n = .ok G ∧ (∀ M, M ∈ commutant (G.lie.map (denseGen n)) (G.disc.map (denseGen n))) ∧
      Module.finrank ℝ (commutant (G.lie.map (denseGen n)) (G.disc.map (denseGen n))) = n * n) ∧
    ∃ G, scalingGroup n = .ok G ∧ (∀ M, M ∈ commutant (G.lie.map (denseGen n)) (G.disc.map (denseGen n))) ∧
      Module.finrank ℝ (commutant (G.lie.map (denseGen n)) (G.disc.map (denseGen n))) = n * n := by
  constructor
  · obtain ⟨G, h1, -, h3, h4, -⟩ := C101_trivial n
    have : ∀ M, M ∈ commutant (G.lie.map (denseGen n)) (G.disc.map (denseGen n)) := fun M => mem_commutant.2 (by simp [h3, h4])
    exact ⟨G, h1, this, finrank_all this⟩
  · obtain ⟨G, h1, -, h3, h4, -⟩ := C101_scaling n
    have : ∀ M, M ∈ commutant (G.lie.map (denseGen n)) (G.disc.map (denseGen n)) := fun M => mem_commutant.2 (by rw [h3, h4]; simp)
    exact ⟨G, h1, this, finrank_all this⟩

/-- **C104.** `S(n)`, `n ≥ 2`: one value on the diagonal and one off it; the fixed vectors are the constant ones. -/
theorem C104_symmetric (n : ℕ) (hn : 2 ≤ n) : ∃ G, symGroup n = .ok G ∧ G.lie = [] ∧
    (∀ M, M ∈ commutant [] (G.disc.map (denseGen n)) ↔ ∃ a b : ℝ, ∀ i j, M i j = if i = j then a else b) ∧
    Module.finrank ℝ (commutant [] (G.disc.map (denseGen n))) = 2 ∧
    ∀ c : Fin n → ℝ, (∀ h ∈ G.disc.map (denseGen n), h.mulVec c = c) ↔ ∃ t, ∀ i, c i = t := by
  obtain ⟨G, h1, -, h3, -, hgen⟩ := C54_symmetric n hn
  have hu : ∀ h ∈ G.disc.map (denseGen n), IsUnit h.det := by
    intro h hh
    obtain ⟨σ, rfl⟩ := (hgen h).1 (.gen hh)
    rw [det_permutation]
    rcases Int.units_eq_one_or (Equiv.Perm.sign σ) with h | h <;> simp [h]
  have hM : ∀ M, M ∈ commutant [] (G.disc.map (denseGen n)) ↔ ∃ a b : ℝ, ∀ i j, M i j = if i = j then a else b := by
    intro M
    rw [mem_commutant_iff hu]
    have e : (∀ h, Generated [] (G.disc.map (denseGen n)) h → M * h = h * M) ↔ ∀ (σ : Equiv.Perm (Fin n)) i j, M (σ i) (σ j) = M i j := by
      constructor
      · intro h σ
        exact commute_pm.1 (h _ ((hgen _).2 ⟨σ, rfl⟩))
      · rintro h g hg
        obtain ⟨σ, rfl⟩ := (hgen g).1 hg
        exact commute_pm.2 (h σ)
    rw [e]
    constructor
    · intro h
      have h01 : (⟨0, by omega⟩ : Fin n) ≠ ⟨1, by omega⟩ := by simp [Fin.ext_iff]
      refine ⟨M ⟨0, by omega⟩ ⟨0, by omega⟩, M ⟨0, by omega⟩ ⟨1, by omega⟩, fun i j => ?_⟩
      split_ifs with hij
      · subst hij
        rw [← h (Equiv.swap ⟨0, by omega⟩ i), Equiv.swap_apply_right]
      · obtain ⟨σ, s1, s2⟩ := exists_perm_two h01 hij
        rw [← s1, ← s2, h]
    · rintro ⟨a, b, h⟩ σ i j
      rw [h, h]
      simp [σ.injective.eq_iff]
  refine ⟨G, h1, h3, hM, commutant_finrank (c := 2)
    { toFun := fun v => Matrix.of fun i j => if i = j then v 0 else v 1
      map_add' := fun u v => by ext i j; simp only [Matrix.of_apply, Matrix.add_apply, Pi.add_apply]; split_ifs <;> rfl
      map_smul' := fun c v => by ext i j; simp only [Matrix.of_apply, Matrix.smul_apply, Pi.smul_apply, RingHom.id_apply]; split_ifs <;> rfl } ?_ fun M => ?_, fun c => ?_⟩
  · intro u v huv
    have h2 := congrFun (congrFun huv ⟨0, by omega⟩) ⟨0, by omega⟩
    have h3 := congrFun (congrFun huv ⟨0, by omega⟩) ⟨1, by omega⟩
    simp [Fin.ext_iff] at h2 h3
    funext i
    fin_cases i
    · exact h2
    · exact h3
  · rw [hM]
    exact ⟨fun ⟨x, y, h⟩ => ⟨![x, y], by ext i j; rw [h]; rfl⟩, fun ⟨v, h⟩ => ⟨v 0, v 1, fun i j => by rw [h]; rfl⟩⟩
  · have e := fixed_vector_iff (lie := ([] : List (Matrix (Fin n) (Fin n) ℝ))) hu (c := c)
    simp only [not_mem_nil, false_imp_iff, implies_true, and_true] at e
    rw [e]
    constructor
    · intro h
      refine ⟨c ⟨0, by omega⟩, fun i => ?_⟩
      have := congrFun (h _ ((hgen _).2 ⟨Equiv.swap ⟨0, by omega⟩ i, rfl⟩)) ⟨0, by omega⟩
      rw [← this]
      refine Eq.trans ?_ (pm_mulVec _ c _).symm
      rw [Equiv.swap_apply_left]
    · rintro ⟨t, ht⟩ h hh
      obtain ⟨σ, rfl⟩ := (hgen h).1 hh
      funext i
      refine (pm_mulVec σ c i).trans ?_
      rw [ht, ht]

/-- **C104.** `Z(n)`: the circulant matrices, `n` parameters; the fixed vectors are the constant ones. -/
theorem C104_shift (n : ℕ) (hn : 0 < n) : ∃ G, shiftGroup n = .ok G ∧ G.lie = [] ∧
    (∀ M, M ∈ commutant [] (G.disc.map (denseGen n)) ↔ ∃ w : Fin n → ℝ, M = circulant w) ∧
    Module.finrank ℝ (commutant [] (G.disc.map (denseGen n))) = n ∧
    ∀ c : Fin n → ℝ, (∀ h ∈ G.disc.map (denseGen n), h.mulVec c = c) ↔ ∃ t, ∀ i, c i = t := by
  obtain ⟨G, h1, -, h3, A, hA, hact, -⟩ := C54_cyclic n hn
  obtain ⟨m, rfl⟩ : ∃ m, n = m + 1 := ⟨n - 1, by omega⟩
  have hp : denseGen (m + 1) A = pm (Equiv.subRight (1 : Fin (m + 1))) := by
    refine Matrix.ext_of_mulVec_single fun j => funext fun i => ?_
    rw [hact, pm_mulVec]
    congr 1
    refine Fin.ext ?_
    show (i.val + m) % (m + 1) = (i - 1 : Fin (m + 1)).val
    rw [Fin.sub_def]
    show _ = (m + 1 - (1 : Fin (m + 1)).val + i.val) % (m + 1)
    cases m with
    | zero => simp
    | succ m =>
      rw [show (1 : Fin (m + 1 + 1)).val = 1 from rfl]
      congr 1
      omega
  have hM : ∀ M, M ∈ commutant [] (G.disc.map (denseGen (m + 1))) ↔ ∃ w : Fin (m + 1) → ℝ, M = circulant w := by
    intro M
    rw [mem_commutant, hA, map_singleton, hp]
    simp only [not_mem_nil, false_imp_iff, implies_true, true_and, mem_singleton, forall_eq, commute_pm]
    constructor
    · intro h
      refine ⟨fun k => M k 0, ?_⟩
      have key : ∀ j i : Fin (m + 1), M i j = M (i - j) 0 := by
        intro j
        induction j using Fin.induction with
        | zero => simp
        | succ j ih =>
          intro i
          have := h i j.succ
          rw [Equiv.subRight_apply, Equiv.subRight_apply, ← Fin.coeSucc_eq_succ, add_sub_cancel_right, ih] at this
          rw [← Fin.coeSucc_eq_succ, ← this, sub_sub, add_comm (1 : Fin (m + 1))]
      ext i j
      exact key j i
    · rintro ⟨w, rfl⟩ i j
      rw [circulant_apply, circulant_apply, Equiv.subRight_apply, Equiv.subRight_apply, sub_sub_sub_cancel_right]
  refine ⟨G, h1, h3, hM, commutant_finrank (c := m + 1)
    { toFun := fun v => circulant v
      map_add' := fun u v => (circulant_add u v).symm
      map_smul' := fun c v => (circulant_smul c v).symm } (fun u v huv => circulant_injective huv) hM, fun c => ?_⟩
  rw [hA, map_singleton, hp]
  simp only [mem_singleton, forall_eq]
  constructor
  · intro h
    refine ⟨c 0, fun i => ?_⟩
    induction i using Fin.induction with
    | zero => rfl
    | succ i ih =>
      have := congrFun h i.succ
      rw [pm_mulVec, Equiv.subRight_apply, ← Fin.coeSucc_eq_succ, add_sub_cancel_right] at this
      rw [← Fin.coeSucc_eq_succ, ← this, ih]
  · rintro ⟨t, ht⟩
    funext i
    rw [pm_mulVec, ht, ht]

theorem plane_commute {s c : ℝ} (hs : s ≠ 0) {M : Matrix (Fin 2) (Fin 2) ℝ} :
    M * !![c, s; -s, c] = !![c, s; -s, c] * M ↔ ∃ x y : ℝ, M = !![x, -y; y, x] := by
  constructor
  · intro h1
    rw [Matrix.eta_fin_two M] at h1 ⊢
    have h2 := congrFun (congrFun h1 0) 0
    have h3 := congrFun (congrFun h1 0) 1
    simp [Matrix.mul_apply, Fin.sum_univ_two] at h2 h3
    have e1 : M 0 1 = -M 1 0 := mul_left_cancel₀ hs (by linarith)
    have e2 : M 1 1 = M 0 0 := mul_left_cancel₀ hs (by linarith)
    exact ⟨M 0 0, M 1 0, by rw [e1, e2]⟩
  · rintro ⟨x, y, rfl⟩
    ext i j
    fin_cases i <;> fin_cases j <;> simp [Matrix.mul_apply, Fin.sum_univ_two] <;> ring

theorem sin_third_pos {k : ℕ} (hk : 3 ≤ k) : Real.sin (2 * Real.pi / k) ≠ 0 := by
  have hp := Real.pi_pos
  have hk' : (3 : ℝ) ≤ k := by exact_mod_cast hk
  have h1 : 0 < 2 * Real.pi / k := by positivity
  have h2 : 2 * Real.pi / k < Real.pi := by
    rw [div_lt_iff₀ (by linarith)]
    nlinarith
  exact (Real.sin_pos_of_pos_of_lt_pi h1 h2).ne'

/-- **C104.** `C(k)`, `k ≥ 3`: the matrices `[[x,-y],[y,x]]`, two parameters, as for `SO(2)`; for `k ≤ 2` all matrices. -/
theorem C104_cyclic (k : ℕ) (hk : 0 < k) : ∃ G, cyclicGroup k = .ok G ∧ G.lie = [] ∧
    (3 ≤ k → (∀ M, M ∈ commutant [] (G.disc.map (denseGen 2)) ↔ ∃ x y : ℝ, M = !![x, -y; y, x])) ∧
    (k < 3 → ∀ M, M ∈ commutant [] (G.disc.map (denseGen 2))) ∧
    Module.finrank ℝ (commutant [] (G.disc.map (denseGen 2))) = if k < 3 then 4 else 2 := by
  obtain ⟨p, hG, -⟩ := cyclicGroup_eq k
  refine ⟨_, hG, rfl, ?_⟩
  have hM : ∀ M, M ∈ commutant [] ([ofMatrix (rotGen k)].map (denseGen 2)) ↔ M * rotGen k = rotGen k * M := by
    intro M
    rw [mem_commutant, map_singleton, dense_ofMatrix]
    simp
  have h3 : 3 ≤ k → (∀ M, M ∈ commutant [] ([ofMatrix (rotGen k)].map (denseGen 2)) ↔ ∃ x y : ℝ, M = !![x, -y; y, x]) := by
    intro h M
    rw [hM]
    exact plane_commute (sin_third_pos h)
  have h2 : k < 3 → ∀ M, M ∈ commutant [] ([ofMatrix (rotGen k)].map (denseGen 2)) := by
    intro h M
    rw [hM]
    obtain rfl | rfl : k = 1 ∨ k = 2 := by omega
    · have : rotGen 1 = 1 := by
        ext i j
        fin_cases i <;> fin_cases j <;> simp [rotGen]
      rw [this, mul_one, one_mul]
    · have : rotGen 2 = -1 := by
        have e : 2 * Real.pi / (2 : ℕ) = Real.pi := by push_cast; ring
        ext i j
        fin_cases i <;> fin_cases j <;> simp [rotGen]
      rw [this, mul_neg, neg_mul, mul_one, one_mul]
  refine ⟨h3, h2, ?_⟩
  split_ifs with h
  · exact finrank_all (h2 h)
  · refine commutant_finrank (c := 2)
      { toFun := fun v => !![v 0, -v 1; v 1, v 0]
        map_add' := fun u v => by ext i j; fin_cases i <;> fin_cases j <;> simp; ring
        map_smul' := fun c v => by ext i j; fin_cases i <;> fin_cases j <;> simp } ?_ fun M => ?_
    · intro u v huv
      have h2 := congrFun (congrFun huv 0) 0
      have h3 := congrFun (congrFun huv 1) 0
      simp at h2 h3
      funext i
      fin_cases i
      · exact h2
      · exact h3
    · refine (h3 (by omega) M).trans ?_
      exact ⟨fun ⟨x, y, h⟩ => ⟨![x, y], h⟩, fun ⟨v, h⟩ => ⟨v 0, v 1, h⟩⟩

/-- **C104.** `D(k)`, `k ≥ 3`: only the multiples of the identity. -/
theorem C104_dihedral (k : ℕ) (hk : 3 ≤ k) : ∃ G, dihedralGroup k = .ok G ∧ G.lie = [] ∧
    (∀ M, M ∈ commutant [] (G.disc.map (denseGen 2)) ↔ ∃ c : ℝ, M = c • 1) ∧
    Module.finrank ℝ (commutant [] (G.disc.map (denseGen 2))) = 1 := by
  obtain ⟨p, hG, -⟩ := cyclicGroup_eq k
  have hd : dihedralGroup k = .ok ⟨some 2, [], [ofMatrix (rotGen k)] ++ [ofMatrix reflGen], true, p⟩ := by
    rw [dihedralGroup, hG]
    rfl
  refine ⟨_, hd, rfl, commutant_scalar two_pos fun M hM => ?_⟩
  rw [mem_commutant] at hM
  have h1 := hM.2 (rotGen k) (by simp [dense_ofMatrix])
  have h2 := hM.2 reflGen (by simp [dense_ofMatrix])
  obtain ⟨x, y, rfl⟩ := (plane_commute (sin_third_pos hk)).1 h1
  have h3 := congrFun (congrFun h2 1) 0
  simp [reflGen, Matrix.mul_apply, Fin.sum_univ_two] at h3
  have h4 : y = 0 := by linarith
  refine ⟨x, ?_⟩
  ext i j
  fin_cases i <;> fin_cases j <;> simp [h4]

/-- **C104.** `RubiksCube()`: six parameters, those of `C100_weights`. -/
theorem C104_rubiks : ∃ G, rubiksGroup = .ok G ∧ Module.finrank ℝ (commutant [] (G.disc.map (denseGen 48))) = 6 := by
  obtain ⟨G, h1, h2⟩ := C100_weights
  refine ⟨G, h1, commutant_finrank (c := 6)
    { toFun := fun v => Matrix.of fun i j => if isCorner i then (if isCorner j then (if i = j then v 0 else v 1) else v 2)
        else (if isCorner j then v 3 else if i = j then v 4 else v 5)
      map_add' := fun u v => by ext i j; simp only [Matrix.of_apply, Matrix.add_apply, Pi.add_apply]; split_ifs <;> rfl
      map_smul' := fun c v => by ext i j; simp only [Matrix.of_apply, Matrix.smul_apply, Pi.smul_apply, RingHom.id_apply]; split_ifs <;> rfl } ?_ fun M => ?_⟩
  · intro u v huv
    have e : ∀ i j : Fin 48, (if isCorner i then (if isCorner j then (if i = j then u 0 else u 1) else u 2)
        else (if isCorner j then u 3 else if i = j then u 4 else u 5)) = (if isCorner i then (if isCorner j then (if i = j then v 0 else v 1) else v 2)
        else (if isCorner j then v 3 else if i = j then v 4 else v 5)) := fun i j => congrFun (congrFun huv i) j
    have c0 : isCorner 0 = true := by decide +kernel
    have c2 : isCorner 2 = true := by decide +kernel
    have c1 : isCorner 1 = false := by decide +kernel
    have c3 : isCorner 3 = false := by decide +kernel
    funext i
    fin_cases i
    · simpa [c0] using e 0 0
    · simpa [c0, c2] using e 0 2
    · simpa [c0, c1] using e 0 1
    · simpa [c0, c1] using e 1 0
    · simpa [c1] using e 1 1
    · simpa [c1, c3] using e 1 3
  · rw [mem_commutant]
    simp only [not_mem_nil, false_imp_iff, implies_true, true_and]
    rw [h2]
    exact ⟨fun ⟨a, b, c, d, e, f, h⟩ => ⟨![a, b, c, d, e, f], by ext i j; rw [h]; rfl⟩,
      fun ⟨v, h⟩ => ⟨v 0, v 1, v 2, v 3, v 4, v 5, fun i j => by rw [h]; rfl⟩⟩

/-- The face opposite to a face, in the numbering of `Cube`. -/
def oppFace : Fin 6 → Fin 6 := ![5, 3, 4, 1, 2, 0]

/-- The permutation of faces of a word in the two generators of `Cube`. -/
def faceWord (w : List Bool) (i : Fin 6) : Fin 6 :=
  w.foldl (fun i b => if b then (![4, 1, 0, 3, 5, 2] : Fin 6 → Fin 6) i else (![3, 0, 2, 5, 4, 1] : Fin 6 → Fin 6) i) i

/-- Words of two letters of a given length. -/
def words : ℕ → List (List Bool)
  | 0 => [[]]
  | k + 1 => (words k).flatMap fun w => [true :: w, false :: w]

theorem face_pairs : ∀ i j : Fin 6, ∃ k < 6, ∃ w ∈ words k,
    faceWord w 0 = i ∧ faceWord w (if i = j then 0 else if oppFace i = j then 5 else 1) = j := by decide +kernel

/-- **C104.** `Cube()`: one value for equal, one for opposite and one for adjacent faces, three parameters. -/
theorem C104_cube : ∃ G, cubeGroup = .ok G ∧ (∀ M, M ∈ commutant [] (G.disc.map (denseGen 6)) ↔
      ∃ a b c : ℝ, ∀ i j, M i j = if i = j then a else if oppFace i = j then b else c) ∧
    Module.finrank ℝ (commutant [] (G.disc.map (denseGen 6))) = 3 := by
  have hgrp : ∃ G, cubeGroup = .ok G ∧ G.disc = cubeGens.map .perm := by
    refine ⟨_, groupInit_disc _ _, rfl⟩
  obtain ⟨G, h1, h2⟩ := hgrp
  have hg : ∀ p ∈ cubeGens, p ~ range 6 := by decide +kernel
  let f1 : Fin 6 → Fin 6 := ![4, 1, 0, 3, 5, 2]
  let f2 : Fin 6 → Fin 6 := ![3, 0, 2, 5, 4, 1]
  have hf1 : Function.Bijective f1 := by decide +kernel
  have hf2 : Function.Bijective f2 := by decide +kernel
  have hd : G.disc.map (denseGen 6) = [pm (Equiv.ofBijective f1 hf1), pm (Equiv.ofBijective f2 hf2)] := by
    rw [h2]
    have e1 := (isPermMatrix_iff (σ := Equiv.ofBijective f1 hf1) (p := [4, 1, 0, 3, 5, 2]) (fun i => by fin_cases i <;> rfl) _).1
      (isPermMatrix_dense (hg _ (by simp [cubeGens])))
    have e2 := (isPermMatrix_iff (σ := Equiv.ofBijective f2 hf2) (p := [3, 0, 2, 5, 4, 1]) (fun i => by fin_cases i <;> rfl) _).1
      (isPermMatrix_dense (hg _ (by simp [cubeGens])))
    simp only [cubeGens, map_cons, map_nil, e1, e2]
  have hM : ∀ M, M ∈ commutant [] (G.disc.map (denseGen 6)) ↔
      ∃ a b c : ℝ, ∀ i j, M i j = if i = j then a else if oppFace i = j then b else c := by
    intro M
    rw [mem_commutant, hd]
    simp only [not_mem_nil, false_imp_iff, implies_true, true_and, mem_cons, or_false, forall_eq_or_imp, forall_eq, commute_pm,
      Equiv.ofBijective_apply]
    constructor
    · rintro ⟨m1, m2⟩
      have key : ∀ w i j, M (faceWord w i) (faceWord w j) = M i j := by
        intro w
        induction w with
        | nil => exact fun i j => rfl
        | cons b w ih =>
          intro i j
          cases b
          · exact (ih (f2 i) (f2 j)).trans (m2 i j)
          · exact (ih (f1 i) (f1 j)).trans (m1 i j)
      refine ⟨M 0 0, M 0 5, M 0 1, fun i j => ?_⟩
      obtain ⟨k, -, w, -, hi, hj⟩ := face_pairs i j
      have := key w 0 (if i = j then 0 else if oppFace i = j then 5 else 1)
      rw [hi, hj] at this
      rw [this]
      split_ifs <;> rfl
    · rintro ⟨a, b, c, h⟩
      have e1 : ∀ i j, (f1 i = f1 j ↔ i = j) ∧ (oppFace (f1 i) = f1 j ↔ oppFace i = j) := by decide +kernel
      have e2 : ∀ i j, (f2 i = f2 j ↔ i = j) ∧ (oppFace (f2 i) = f2 j ↔ oppFace i = j) := by decide +kernel
      constructor
      · intro i j
        rw [h, h]
        simp only [(e1 i j).1, (e1 i j).2]
      · intro i j
        rw [h, h]
        simp only [(e2 i j).1, (e2 i j).2]
  refine ⟨G, h1, hM, commutant_finrank (c := 3)
    { toFun := fun v => Matrix.of fun i j => if i = j then v 0 else if oppFace i = j then v 1 else v 2
      map_add' := fun u v => by ext i j; simp only [Matrix.of_apply, Matrix.add_apply, Pi.add_apply]; split_ifs <;> rfl
      map_smul' := fun c v => by ext i j; simp only [Matrix.of_apply, Matrix.smul_apply, Pi.smul_apply, RingHom.id_apply]; split_ifs <;> rfl } ?_ fun M => ?_⟩
  · intro u v huv
    funext i
    fin_cases i
    · exact congrFun (congrFun huv 0) 0
    · exact congrFun (congrFun huv 0) 5
    · exact congrFun (congrFun huv 0) 1
  · rw [hM]
    exact ⟨fun ⟨a, b, c, h⟩ => ⟨![a, b, c], by ext i j; rw [h]; rfl⟩, fun ⟨v, h⟩ => ⟨v 0, v 1, v 2, fun i j => by rw [h]; rfl⟩⟩

/-- **C104.** `ZksZnxZn(k,n)`: the group convolutions of `C63_convolution`, `k n²` parameters. -/
theorem C104_grid {k n : ℕ} [NeZero k] [NeZero n] (hk : k = 2 ∨ k = 4) : ∃ G, zksznGroup k n = .ok G ∧
    Module.finrank ℝ (commutant [] (G.disc.map (denseGen (k * (n * n))))) = k * (n * n) := by
  obtain ⟨G, h1, S, h2, h3⟩ := C63_weights (k := k) (n := n) hk
  refine ⟨G, h1, ?_⟩
  have : commutant [] (G.disc.map (denseGen (k * (n * n)))) = S := by
    ext M
    rw [mem_commutant, h2]
    simp
  rw [this, h3]

section
variable {W : World} {g : Gid} {N : ℕ} {custom : ∀ k g, AtomRep ℝ (W.d g) (W.usize k g)}
  {lie disc : ∀ g, List (Matrix (Fin (W.d g)) (Fin (W.d g)) ℝ)} {solve : ℕ → LinOp ℝ → Py (DMat ℝ)} {σ : NetSt ℝ}

/-- **C104, sets.** For `S(n)` the layers `Linear(V,V)` compute exactly the maps `x ↦ αx + β(Σx)1 + γ1` (`DeepSets`). -/
theorem C104_sets (hW : W.SingleOK g N) (ok : GroupsOK W custom lie disc)
    (hsol : SolverOK W (gensOf W (stdAtoms W custom) lie disc) solve) (hσ : NetReach W g (gensOf W (stdAtoms W custom) lie disc) solve σ)
    (hd : 2 ≤ W.d g) (hN : W.d g * W.d g ≤ N) {G : Grp} (hG : symGroup (W.d g) = .ok G) (hl : lie g = G.lie.map (denseGen (W.d g)))
    (hdisc : disc g = G.disc.map (denseGen (W.d g))) {L : LinearL ℝ} {σ' : NetSt ℝ}
    (hL : LinearL.init W (gensOf W (stdAtoms W custom) lie disc) solve (vecRep g) (vecRep g) σ = .ok (L, σ'))
    (f : (Fin (W.d g) → ℝ) → Fin (W.d g) → ℝ) :
    (∃ (w : DMat ℝ) (b : List ℝ), w.rows = W.d g ∧ w.cols = W.d g ∧ b.length = W.d g ∧
      ∀ x, L.apply w b (List.ofFn x) = .ok (List.ofFn (f x))) ↔
    ∃ α β γ : ℝ, ∀ x i, f x i = α * x i + β * ∑ j, x j + γ := by
  rw [C104_vector_layers hW ok hsol hσ hd hN hL]
  obtain ⟨G', h1, h2, h3, -, h5⟩ := C104_symmetric (W.d g) hd
  rw [hG] at h1
  cases h1
  rw [hl, h2, hdisc]
  have hmv : ∀ (M : Matrix (Fin (W.d g)) (Fin (W.d g)) ℝ) (a b : ℝ), (∀ i j, M i j = if i = j then a else b) →
      ∀ x i, M.mulVec x i = (a - b) * x i + b * ∑ j, x j := by
    intro M a b h x i
    rw [Matrix.mulVec, dotProduct]
    have : ∀ j, M i j * x j = (if i = j then (a - b) * x j else 0) + b * x j := by
      intro j
      rw [h]
      split_ifs <;> ring
    rw [Finset.sum_congr rfl fun j _ => this j, Finset.sum_add_distrib, Finset.sum_ite_eq, if_pos (Finset.mem_univ _), Finset.mul_sum]
  constructor
  · rintro ⟨M, hM, c, ⟨hc, -⟩, h⟩
    obtain ⟨a, b, hab⟩ := (h3 M).1 hM
    obtain ⟨t, ht⟩ := (h5 c).1 hc
    refine ⟨a - b, b, t, fun x i => ?_⟩
    rw [h, Pi.add_apply, hmv M a b hab, ht]
  · rintro ⟨α, β, γ, h⟩
    refine ⟨Matrix.of fun i j => if i = j then α + β else β, (h3 _).2 ⟨α + β, β, fun i j => rfl⟩, fun _ => γ, ⟨(h5 _).2 ⟨γ, fun _ => rfl⟩, by simp⟩,
      fun x => funext fun i => ?_⟩
    rw [h, Pi.add_apply, hmv (Matrix.of fun i j => if i = j then α + β else β) (α + β) β fun i j => rfl]
    ring

/-- **C104, sequences.** For `Z(n)` the layers `Linear(V,V)` compute exactly the circular convolutions with a constant bias. -/
theorem C104_sequences (hW : W.SingleOK g N) (ok : GroupsOK W custom lie disc)
    (hsol : SolverOK W (gensOf W (stdAtoms W custom) lie disc) solve) (hσ : NetReach W g (gensOf W (stdAtoms W custom) lie disc) solve σ)
    (hd : 2 ≤ W.d g) (hN : W.d g * W.d g ≤ N) {G : Grp} (hG : shiftGroup (W.d g) = .ok G) (hl : lie g = G.lie.map (denseGen (W.d g)))
    (hdisc : disc g = G.disc.map (denseGen (W.d g))) {L : LinearL ℝ} {σ' : NetSt ℝ}
    (hL : LinearL.init W (gensOf W (stdAtoms W custom) lie disc) solve (vecRep g) (vecRep g) σ = .ok (L, σ'))
    (f : (Fin (W.d g) → ℝ) → Fin (W.d g) → ℝ) :
    (∃ (w : DMat ℝ) (b : List ℝ), w.rows = W.d g ∧ w.cols = W.d g ∧ b.length = W.d g ∧
      ∀ x, L.apply w b (List.ofFn x) = .ok (List.ofFn (f x))) ↔
    ∃ (w : Fin (W.d g) → ℝ) (γ : ℝ), ∀ x i, f x i = ∑ j, w (i - j) * x j + γ := by
  rw [C104_vector_layers hW ok hsol hσ hd hN hL]
  obtain ⟨G', h1, h2, h3, -, h5⟩ := C104_shift (W.d g) (by omega)
  rw [hG] at h1
  cases h1
  rw [hl, h2, hdisc]
  constructor
  · rintro ⟨M, hM, c, ⟨hc, -⟩, h⟩
    obtain ⟨w, rfl⟩ := (h3 M).1 hM
    obtain ⟨t, ht⟩ := (h5 c).1 hc
    refine ⟨w, t, fun x i => ?_⟩
    rw [h, Pi.add_apply, ht]
    rfl
  · rintro ⟨w, γ, h⟩
    exact ⟨circulant w, (h3 _).2 ⟨w, rfl⟩, fun _ => γ, ⟨(h5 _).2 ⟨γ, fun _ => rfl⟩, by simp⟩, fun x => funext fun i => h x i⟩

end

/-- A world in which every group acts on three coordinates by permutations. -/
def setsW : World := { exW with d := fun _ => 3, orth := fun _ => true, isPerm := fun _ => true }

theorem setsW_single : setsW.SingleOK 0 9 where
  pos := by norm_num
  inj _ _ _ _ h := exW_hash_inj h
  sG h hs := by simp [setsW, exW] at hs

theorem permMatrix_facts {n : ℕ} (σ : Equiv.Perm (Fin n)) : IsUnit (σ.permMatrix ℝ).det ∧ (σ.permMatrix ℝ)ᵀ * σ.permMatrix ℝ = 1 := by
  constructor
  · rw [det_permutation]
    rcases Int.units_eq_one_or (Equiv.Perm.sign σ) with h | h <;> simp [h]
  · rw [Matrix.transpose_permMatrix, ← Matrix.permMatrix_mul, mul_inv_cancel, Matrix.permMatrix_one]

theorem sets_groups {G : Grp} (hG : ∀ h ∈ G.disc.map (denseGen 3), ∃ σ : Equiv.Perm (Fin 3), h = σ.permMatrix ℝ) :
    GroupsOK setsW (fun k g => trivialAtom _ _) (fun _ => []) fun _ => G.disc.map (denseGen 3) where
  unit g h hh := by
    obtain ⟨σ, rfl⟩ := hG h hh
    exact (permMatrix_facts σ).1
  orth g _ := by
    refine ⟨by simp, fun h hh => ?_⟩
    obtain ⟨σ, rfl⟩ := hG h hh
    exact (permMatrix_facts σ).2
  hom _ _ := trivialAtom_hom _ _
  user k g _ M _ := by simp [trivialAtom]
  perm g _ := ⟨rfl, hG⟩

/-- The hypotheses of `C104_layers`, `C104_vector_layers`, `C104_sets` and `C104_basis` are met by `S(3)`: the layer that forms the sum is computed. -/
example : ∃ (G : Grp) (solve : ℕ → LinOp ℝ → Py (DMat ℝ)) (L : LinearL ℝ) (σ' : NetSt ℝ),
    LinearL.init setsW (gensOf setsW (stdAtoms setsW fun k g => trivialAtom _ _) (fun _ => []) fun _ => G.disc.map (denseGen 3)) solve
      (vecRep 0) (vecRep 0) ⟨freshSt, none, 0⟩ = .ok (L, σ') ∧
    (∃ (w : DMat ℝ) (b : List ℝ), w.rows = 3 ∧ w.cols = 3 ∧ b.length = 3 ∧
      ∀ x : Fin 3 → ℝ, L.apply w b (List.ofFn x) = .ok (List.ofFn fun _ : Fin 3 => ∑ j, x j)) ∧
    ∃ r B, (Expr.rshift (.rep 0) (.rep 0)).eval setsW 0 = .ok r ∧
      (r.equivariantBasis setsW (gensOf setsW (stdAtoms setsW fun k g => trivialAtom _ _) (fun _ => []) fun _ => G.disc.map (denseGen 3)) solve
        (session setsW (gensOf setsW (stdAtoms setsW fun k g => trivialAtom _ _) (fun _ => []) fun _ => G.disc.map (denseGen 3)) solve [] freshSt)).1 = .ok B ∧
      B.sem.cols = 2 := by
  obtain ⟨s, s1, s2⟩ := exists_solver ℝ
  obtain ⟨G, h1, -, h3, -, hgen⟩ := C54_symmetric 3 (by norm_num)
  have ok := sets_groups (G := G) fun h hh => (hgen h).1 (.gen hh)
  have hV := vecRep_over (W := setsW) (g := 0) (N := 9) (by decide) (by decide)
  have hσ : NetReach setsW 0 (gensOf setsW (stdAtoms setsW fun k g => trivialAtom _ _) (fun _ => []) fun _ => G.disc.map (denseGen 3)) (fun _ => s)
      ⟨freshSt, none, 0⟩ := .start none 0 fun h e => by simp at e
  obtain ⟨L, σ', hL⟩ := LinearL.init_runs setsW_single gensOf_sized (s1 _ _) hV hV (fun _ _ C _ => s2 C) (by decide) _ (hσ.ok (s1 _ _))
  have hl : ([] : List (Matrix (Fin 3) (Fin 3) ℝ)) = G.lie.map (denseGen 3) := by rw [h3]; rfl
  refine ⟨G, fun _ => s, L, σ', hL, ?_, ?_⟩
  · exact (C104_sets setsW_single ok (s1 _ _) hσ (by decide) (by decide) h1 hl rfl hL fun x _ => ∑ j, x j).2 ⟨0, 1, 0, fun x i => by ring⟩
  · obtain ⟨r, B, e1, e2, -, e3⟩ := C104_basis (lie := fun _ => []) (disc := fun _ => G.disc.map (denseGen 3)) (custom := fun k g => trivialAtom _ _)
      setsW_single (by decide) (by decide) (fun g => ⟨by
        intro x hx
        obtain ⟨h, hh, rfl⟩ := mem_map.1 hx
        exact elem_dual ok (.gen hh), by simp [gensOf]⟩) (s1 _ _) (fun _ _ C _ => s2 C) []
    refine ⟨r, B, e1, e2, e3.trans ?_⟩
    obtain ⟨G', g1, -, -, g2, -⟩ := C104_symmetric 3 (by norm_num)
    rw [h1] at g1
    cases g1
    exact g2

end Verif
