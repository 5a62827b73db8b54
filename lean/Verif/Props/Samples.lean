import Verif.Lemmas.Samples
import Verif.Props.ClassicalObjects
import Verif.Props.ClassicalObjects2
import Verif.Props.SmallGroups
import Verif.Props.PlaneGroups

/-!
# C119: what `sample()` can return, and what it cannot
-/
namespace Verif
open Matrix List NormedSpace

theorem canSample_iff (G : Grp) (d : ℕ) (zs : Option (List ℝ)) (h : Matrix (Fin d) (Fin d) ℝ) :
    G.CanSample d zs h ↔ SampledBy zs (G.lie.map (denseGen d)) (G.disc.map (denseGen d)) h := by
  simp only [Grp.CanSample, SampledBy, Grp.samples, length_map]

theorem noScale (D : ℕ) : ScaleOK none D := fun s h => by cases h

/-- **C119.** `G.samples(N)` returns `N` matrices, all of them in the group generated by the generators; `G.sample()` returns one. -/
theorem C119_samples (G : Grp) (d : ℕ) (zs : Option (List ℝ)) (N : ℕ) (w : Draws) (hw : w.Meets N G.lie.length G.disc.length) :
    (G.samples d zs w).length = N ∧ (∀ h ∈ G.samples d zs w, Generated (G.lie.map (denseGen d)) (G.disc.map (denseGen d)) h) ∧
      (N = 1 → ∃ h, G.sample d zs w = .ok h ∧ Generated (G.lie.map (denseGen d)) (G.disc.map (denseGen d)) h) := by
  have h1 : (G.samples d zs w).length = N := samplesOf_length hw
  have h2 : ∀ h ∈ G.samples d zs w, Generated (G.lie.map (denseGen d)) (G.disc.map (denseGen d)) h :=
    samplesOf_generated (by simpa using hw)
  refine ⟨h1, h2, fun hN => ?_⟩
  obtain ⟨h, e⟩ := length_eq_one_iff.1 (h1.trans hN)
  exact ⟨h, by rw [Grp.sample, e], h2 h (by rw [e]; simp)⟩

/-- A case: two samples from a group with one infinitesimal and two discrete generators. -/
example : (⟨[[0.5], [-1]], [[[1, 2, -5], [0, 0, 3]], [[4, -1, 0], [2, 2, 2]]], [[0, 1], [1, 0], [1, 0]]⟩ : Draws).Meets 2 1 2 where
  z := ⟨rfl, by simp⟩
  ks := ⟨rfl, by simp⟩
  orders := ⟨rfl, by
    intro o ho
    simp only [mem_cons, not_mem_nil, or_false, or_self] at ho
    rcases ho with rfl | rfl
    · exact Perm.refl _
    · exact Perm.swap 0 1 []⟩

theorem groupInit_gens {d : Option ℕ} {lie disc : Option (List (LinOp ℝ))} {o p : Option Bool} {G : Grp} (h : groupInit d lie disc o p = .ok G) :
    G.lie = lie.getD [] ∧ G.disc = disc.getD [] := by
  unfold groupInit at h
  simp only at h
  split at h <;> cases h
  exact ⟨rfl, rfl⟩

/-- what one infinitesimal table gives -/
theorem canSample_table {n : ℕ} {a : Arr3 ℝ} {G : Grp} {zs : Option (List ℝ)} (hG : groupInit none (some (a.gens n)) none none none = .ok G)
    (hs : ScaleOK zs (a.mats n).length) (h : Matrix (Fin n) (Fin n) ℝ) :
    G.CanSample n zs h ↔ ∃ A ∈ Submodule.span ℝ {B | B ∈ a.mats n}, h = exp A := by
  obtain ⟨h1, h2⟩ := groupInit_gens hG
  rw [canSample_iff, h1, h2, Option.getD_some, Option.getD_none, map_gens, map_nil]
  exact sampledBy_lie hs h

/-- **C119.** Every rotation can be sampled from `SO(n)`, and nothing else. -/
theorem C119_so (n : ℕ) (hn : 2 ≤ n) : ∃ G, soGroup n = .ok G ∧ ∀ h, G.CanSample n none h ↔ hᵀ * h = 1 ∧ h.det = 1 := by
  obtain ⟨a, ha, -, -, hs⟩ := C50_so_generators n
  obtain ⟨G, hG, -⟩ := C116_so n hn
  refine ⟨G, hG, fun h => ?_⟩
  have e : groupInit none (some (a.gens n)) none none none = .ok G := by rw [← hG, soGroup, ha]; rfl
  rw [canSample_table e (noScale _)]
  constructor
  · rintro ⟨A, hA, rfl⟩
    obtain ⟨a', ha', hg⟩ := C115_so n
    rw [ha] at ha'
    cases ha'
    exact (hg _).1 (.exp hA)
  · rintro ⟨h1, h2⟩
    obtain ⟨A, hA, rfl⟩ := exp_specialOrthogonal h1 h2
    exact ⟨A, (hs A).2 hA, rfl⟩

/-- **C119.** Every orthogonal matrix can be sampled from `O(n)`, and nothing else. -/
theorem C119_o (n : ℕ) (hn : 0 < n) : ∃ G, oGroup n = .ok G ∧ ∀ h, G.CanSample n none h ↔ hᵀ * h = 1 := by
  obtain ⟨a, ha, -, -, hs⟩ := C50_so_generators n
  obtain ⟨a', b, ha', hb, hg⟩ := C115_o n hn
  rw [ha] at ha'
  cases ha'
  obtain ⟨G, hG, -⟩ := C116_o n hn
  have hm := oDisc_mats n b hb
  obtain ⟨r, hr⟩ : ∃ r : Matrix (Fin n) (Fin n) ℝ, r = Matrix.diagonal fun i => if i.val = 0 then -1 else 1 := ⟨_, rfl⟩
  rw [← hr] at hm
  have hrr : r * r = 1 := by
    rw [hr, diagonal_mul_diagonal, ← diagonal_one]
    congr 1; funext i; split_ifs <;> norm_num
  have hrT : rᵀ = r := by rw [hr, diagonal_transpose]
  have hrd : r.det = -1 := by
    obtain ⟨b', hb', r', hr', hd⟩ := C50_o_reflection n hn
    rw [hb] at hb'
    cases hb'
    rw [hr'] at hm
    rw [← (List.cons.inj hm).1]; exact hd
  have e : groupInit none (some (a.gens n)) (some (b.gens n)) none none = .ok G := by rw [← hG, oGroup, hb, ha]; rfl
  obtain ⟨h1, h2⟩ := groupInit_gens e
  refine ⟨G, hG, fun h => ?_⟩
  rw [canSample_iff, h1, h2, Option.getD_some, Option.getD_some, map_gens, map_gens, hm, sampledBy_one (noScale _) (by rw [hrd]; simp)]
  constructor
  · rintro ⟨A, hA, k, -, -, rfl⟩
    rw [hm] at hg
    refine (hg _).1 (.mul (.exp hA) ?_)
    rw [← matrixPowerSimple_eq]
    unfold matrixPowerSimple
    rw [powLoop_eq, powLoop_eq]
    split
    · exact Generated.pow (.inv (by simp)) _
    · exact Generated.pow (.gen (by simp)) _
  · intro hh
    have hdet : h.det = 1 ∨ h.det = -1 := by
      have := congrArg det hh
      rw [det_mul, det_transpose, det_one] at this
      exact mul_self_eq_one_iff.1 this
    rcases hdet with hd | hd
    · obtain ⟨A, hA, rfl⟩ := exp_specialOrthogonal hh hd
      exact ⟨A, (hs A).2 hA, 0, by norm_num, by norm_num, by simp⟩
    · obtain ⟨A, hA, e⟩ := exp_specialOrthogonal (Q := h * r) (by
        rw [transpose_mul, hrT, Matrix.mul_assoc, ← Matrix.mul_assoc hᵀ, hh, Matrix.one_mul, hrr]) (by rw [det_mul, hd, hrd]; norm_num)
      refine ⟨A, (hs A).2 hA, 1, by norm_num, by norm_num, ?_⟩
      rw [e, zpow_one, Matrix.mul_assoc, hrr, Matrix.mul_one]

/-- **C119.** Every unitary matrix can be sampled from `U(n)`, and nothing else. -/
theorem C119_u (n : ℕ) : ∃ re im : Arr3 ℝ, uLie n = .ok (re, im) ∧ ∀ h, SampledBy none (cplxMats re im n) [] h ↔ hᴴ * h = 1 := by
  obtain ⟨re, im, ha, -, -, hs⟩ := C53_u_generators n
  refine ⟨re, im, ha, fun h => ?_⟩
  rw [sampledBy_lie (noScale _)]
  constructor
  · rintro ⟨A, hA, rfl⟩
    obtain ⟨re', im', ha', hg⟩ := C115_u n
    rw [ha] at ha'
    cases ha'
    exact (hg _).1 (.exp hA)
  · intro h1
    obtain ⟨A, hA, rfl⟩ := exp_unitary h1
    exact ⟨A, (hs A).2 hA, rfl⟩

/-- **C119.** All positive multiples of the identity can be sampled from `Scaling(n)`, and all proper orthochronous Lorentz matrices of the
plane from `SO11p()`. -/
theorem C119_one_parameter :
    (∀ n, ∃ G, scalingGroup n = .ok G ∧ ∀ h, G.CanSample n none h ↔ ∃ c : ℝ, 0 < c ∧ h = c • (1 : Matrix (Fin n) (Fin n) ℝ)) ∧
    ∃ G, so11pGroup = .ok G ∧ ∀ h, G.CanSample 2 none h ↔ hᵀ * minkowski 2 * h = minkowski 2 ∧ h.det = 1 ∧ 0 < h 0 0 := by
  refine ⟨fun n => ?_, ?_⟩
  · obtain ⟨G, hG, -, h1, h2, h3, -⟩ := C101_scaling n
    refine ⟨G, hG, fun h => ?_⟩
    rw [canSample_iff, ← h3, h1, h2, map_nil, sampledBy_lie (noScale _), ← generated_single]
  · obtain ⟨G, hG, -, -, -, h3⟩ := C116_so11p
    obtain ⟨h1, h2⟩ := groupInit_gens hG
    have hm : ∃ A, (so11pLie : Arr3 ℝ).mats 2 = [A] := length_eq_one_iff.1 (by simp [Arr3.mats, so11pLie])
    obtain ⟨A, hA⟩ := hm
    refine ⟨G, hG, fun h => ?_⟩
    rw [canSample_iff, ← h3, h1, h2, Option.getD_some, Option.getD_none, map_gens, map_nil, hA, sampledBy_lie (noScale _), ← generated_single]

/-- **C119.** The scale of the noise of `SO13p` changes how likely elements are, not which ones can be sampled: the exponentials of all
combinations of its generators. -/
theorem C119_scale : ∃ G a, so13pGroup = .ok G ∧ so13pLie = .ok a ∧ ∀ h,
    (G.CanSample 4 (some lorentzScale) h ↔ ∃ A ∈ Submodule.span ℝ {B | B ∈ a.mats 4}, h = exp A) ∧
    (G.CanSample 4 (some lorentzScale) h ↔ G.CanSample 4 none h) := by
  obtain ⟨a, ha, hl, -⟩ := C51_so13p_generators
  obtain ⟨G, hG, -⟩ := C116_so13p
  have e : groupInit none (some (a.gens 4)) none none none = .ok G := by rw [← hG, so13pGroup, ha]; rfl
  have hs : ScaleOK (some lorentzScale) (a.mats 4).length := by
    intro s h
    cases h
    refine ⟨by rw [hl]; rfl, fun c hc => ?_⟩
    simp only [lorentzScale, mem_cons, not_mem_nil, or_false] at hc
    rcases hc with rfl | rfl | rfl | rfl | rfl | rfl <;> norm_num
  refine ⟨G, a, hG, ha, fun h => ⟨canSample_table e hs h, ?_⟩⟩
  rw [canSample_table e hs, canSample_table e (noScale _)]

/-- the powers of a matrix of order `k` that are sampled -/
theorem powers_sampled {d k : ℕ} (hk : 0 < k) {R : Matrix (Fin d) (Fin d) ℝ} (hR : ∀ j : ℕ, R ^ j = 1 ↔ k ∣ j) :
    (∀ h, SampledBy none [] [R] h ↔ ∃ e : ℤ, -15 ≤ e ∧ e ≤ 12 ∧ h = R ^ e) ∧
    ((∀ j : ℕ, SampledBy none [] [R] (R ^ j)) ↔ k ≤ 28) := by
  have hu : IsUnit R.det := by
    have h1 : R ^ k = 1 := (hR k).2 (dvd_refl k)
    have := congrArg det h1
    rw [det_pow, det_one] at this
    exact IsUnit.of_pow_eq_one this hk.ne'
  have hz : ∀ j : ℤ, R ^ j = 1 ↔ (k : ℤ) ∣ j := by
    intro j
    rcases Int.eq_nat_or_neg j with ⟨m, rfl | rfl⟩
    · rw [zpow_natCast, hR, Int.natCast_dvd_natCast]
    · rw [Matrix.zpow_neg_natCast, Int.dvd_neg, Int.natCast_dvd_natCast, ← hR]
      constructor
      · intro h
        have hum : IsUnit (R ^ m).det := by rw [det_pow]; exact hu.pow m
        have := Matrix.mul_nonsing_inv (R ^ m) hum
        rwa [h, Matrix.mul_one] at this
      · intro h; rw [h, inv_one]
  have key : ∀ h, SampledBy none [] [R] h ↔ ∃ e : ℤ, -15 ≤ e ∧ e ≤ 12 ∧ h = R ^ e := by
    intro h
    rw [sampledBy_one (noScale _) hu]
    simp only [not_mem_nil, Set.setOf_false, Submodule.span_empty, Submodule.mem_bot, exists_eq_left, exp_zero, Matrix.one_mul]
  refine ⟨key, ?_, ?_⟩
  · intro h
    by_contra hc
    obtain ⟨e, e1, e2, e3⟩ := (key _).1 (h 13)
    have : R ^ (13 - e : ℤ) = 1 := by
      rw [sub_eq_add_neg, Matrix.zpow_add hu]
      have h13 : R ^ (13 : ℤ) = R ^ e := by rw [← e3]; exact zpow_natCast R 13
      rw [h13, ← Matrix.zpow_add hu, add_neg_cancel, zpow_zero]
    have := Int.le_of_dvd (by omega) ((hz _).1 this)
    omega
  · intro hk28 j
    have hm0 := Int.emod_nonneg ((j : ℤ) + 15) (by omega : (k : ℤ) ≠ 0)
    have hm1 := Int.emod_lt_of_pos ((j : ℤ) + 15) (by omega : (0 : ℤ) < k)
    refine (key _).2 ⟨((j : ℤ) + 15) % k - 15, by omega, by omega, ?_⟩
    have hdiv : (j : ℤ) = (((j : ℤ) + 15) % k - 15) + k * (((j : ℤ) + 15) / k) := by
      have := Int.emod_add_mul_ediv ((j : ℤ) + 15) k
      linarith
    rw [← zpow_natCast]
    conv_lhs => rw [hdiv]
    rw [Matrix.zpow_add hu, (hz _).2 (dvd_mul_right _ _), Matrix.mul_one]

/-- **C119.** From `Z(n)` the cyclic shifts by -15 to 12 places are sampled and no others; so all of them are exactly if `n ≤ 28`. -/
theorem C119_z (n : ℕ) (hn : 0 < n) : ∃ G A, shiftGroup n = .ok G ∧ G.disc.map (denseGen n) = [A] ∧
    (∀ h, Generated (G.lie.map (denseGen n)) (G.disc.map (denseGen n)) (A ^ h)) ∧
    (∀ h, G.CanSample n none h ↔ ∃ e : ℤ, -15 ≤ e ∧ e ≤ 12 ∧ h = A ^ e) ∧ ((∀ j : ℕ, G.CanSample n none (A ^ j)) ↔ n ≤ 28) := by
  obtain ⟨G, hG, -, h1, A, h2, -, h3⟩ := C54_cyclic n hn
  have hd : G.disc.map (denseGen n) = [denseGen n A] := by rw [h2]; rfl
  refine ⟨G, denseGen n A, hG, hd, fun j => Generated.pow (.gen (by rw [hd]; simp)) j, ?_⟩
  simp only [canSample_iff, hd, h1, map_nil]
  exact powers_sampled hn h3

/-- **C119.** Likewise for the rotations of `C(k)`. -/
theorem C119_c (k : ℕ) (hk : 0 < k) : ∃ G R, cyclicGroup k = .ok G ∧ G.disc.map (denseGen 2) = [R] ∧
    (∀ h, Generated (G.lie.map (denseGen 2)) (G.disc.map (denseGen 2)) (R ^ h)) ∧
    (∀ h, G.CanSample 2 none h ↔ ∃ e : ℤ, -15 ≤ e ∧ e ≤ 12 ∧ h = R ^ e) ∧ ((∀ j : ℕ, G.CanSample 2 none (R ^ j)) ↔ k ≤ 28) := by
  obtain ⟨G, R, hG, -, h1, hd, -, -, -, h3, -⟩ := C61_cyclic k hk
  refine ⟨G, R, hG, hd, fun j => Generated.pow (.gen (by rw [hd]; simp)) j, ?_⟩
  simp only [canSample_iff, hd, h1, map_nil]
  exact powers_sampled hk h3

/-- **C119, limits.** From `GL(n)` and `SL(n)`, `n ≥ 2`, and from `Sp(m)`, `m ≥ 1`, some elements that are generated are never sampled: their
elements are not all exponentials. -/
theorem C119_missed :
    (∀ n, 2 ≤ n → ∃ G, glGroup n = .ok G ∧ ∃ h, Generated (G.lie.map (denseGen n)) (G.disc.map (denseGen n)) h ∧ ¬ G.CanSample n none h) ∧
    (∀ n, 2 ≤ n → ∃ G, slGroup n = .ok G ∧ ∃ h, Generated (G.lie.map (denseGen n)) (G.disc.map (denseGen n)) h ∧ ¬ G.CanSample n none h) ∧
    (∀ m, 1 ≤ m → ∃ G, spGroup m = .ok G ∧
      ∃ h, Generated (G.lie.map (denseGen (2 * m))) (G.disc.map (denseGen (2 * m))) h ∧ ¬ G.CanSample (2 * m) none h) := by
  have gen : ∀ {n : ℕ} (a : Arr3 ℝ) (c : Fin n → ℝ) (i : Fin n), a.mats n ≠ [] → c i < 0 → (∀ j, j ≠ i → c j ≠ c i) → Generated (a.mats n) [] (diagonal c) →
      ∃ G, groupInit none (some (a.gens n)) none none none = .ok G ∧
        ∃ h, Generated (G.lie.map (denseGen n)) (G.disc.map (denseGen n)) h ∧ ¬ G.CanSample n none h := by
    intro n a c i hne hc hi hg
    refine ⟨_, init_table hne, diagonal c, ?_, ?_⟩
    · simp only [map_gens, map_nil]; exact hg
    · rw [canSample_table (init_table hne) (noScale _)]
      rintro ⟨A, -, e⟩
      exact not_exp hc hi A e.symm
  obtain ⟨c, hc⟩ : ∃ c : ∀ m n : ℕ, Fin n → ℝ, c = fun m n i => if i.val = 0 then -2 else if i.val = m then -2⁻¹ else 1 := ⟨_, rfl⟩
  have hne : ∀ m n (h : 0 < n) (j : Fin n), j ≠ ⟨0, h⟩ → c m n j ≠ c m n ⟨0, h⟩ := by
    intro m n h j hj
    have : j.val ≠ 0 := fun e => hj (Fin.ext e)
    rw [hc]
    simp only [this, if_false, if_true]
    split_ifs <;> norm_num
  have hneg : ∀ m n (h : 0 < n), c m n ⟨0, h⟩ < 0 := by intro m n h; rw [hc]; simp
  have hdet : ∀ m n, 0 < m → m < n → (diagonal (c m n)).det = 1 := by
    intro m n h0 hn
    rw [det_diagonal]
    have e0 : (⟨0, by omega⟩ : Fin n) ≠ ⟨m, hn⟩ := fun e => by simp at e; omega
    rw [← Finset.mul_prod_erase Finset.univ _ (Finset.mem_univ (⟨0, by omega⟩ : Fin n)),
      ← Finset.mul_prod_erase _ _ (Finset.mem_erase.2 ⟨e0.symm, Finset.mem_univ (⟨m, hn⟩ : Fin n)⟩), Finset.prod_eq_one]
    · rw [hc]; simp [h0.ne']
    · intro j hj
      simp only [Finset.mem_erase, Finset.mem_univ, and_true] at hj
      have h1 : j.val ≠ 0 := fun e => hj.2 (Fin.ext e)
      have h2 : j.val ≠ m := fun e => hj.1 (Fin.ext e)
      rw [hc]; simp [h1, h2]
  refine ⟨fun n hn => ?_, fun n hn => ?_, fun m hm => ?_⟩
  · obtain ⟨a, ha, hl, -⟩ := C53_gl_generators n
    obtain ⟨a', ha', hg⟩ := C115_gl n
    rw [ha] at ha'
    cases ha'
    rw [glGroup, ha]
    refine gen a (c 1 n) ⟨0, by omega⟩ (fun h => ?_) (hneg _ _ _) (hne _ _ _) ((hg _).2 (by rw [hdet 1 n one_pos (by omega)]; norm_num))
    rw [h] at hl
    have : 0 < n * n := Nat.mul_pos (by omega) (by omega)
    simp at hl
    omega
  · obtain ⟨a, ha, hl, -⟩ := C53_sl_generators n (by omega)
    obtain ⟨a', ha', hg⟩ := C115_sl n (by omega)
    rw [ha] at ha'
    cases ha'
    rw [slGroup, ha]
    refine gen a (c 1 n) ⟨0, by omega⟩ (fun h => ?_) (hneg _ _ _) (hne _ _ _) ((hg _).2 (hdet 1 n one_pos (by omega)))
    rw [h] at hl
    have : 2 * 2 ≤ n * n := Nat.mul_le_mul hn hn
    simp at hl
    have e : n ^ 2 = n * n := by ring
    omega
  · obtain ⟨a, ha, hl, -⟩ := C52_sp_generators m
    obtain ⟨a', ha', hg⟩ := C115_sp m
    rw [ha] at ha'
    cases ha'
    rw [spGroup, ha]
    refine gen a (c m (2 * m)) ⟨0, by omega⟩ (fun h => ?_) (hneg _ _ _) (hne _ _ _) ((hg _).2 ?_)
    · rw [h] at hl
      have : 0 < m * (2 * m + 1) := Nat.mul_pos (by omega) (by omega)
      simp at hl
      omega
    · ext i j
      rw [diagonal_transpose, mul_diagonal, diagonal_mul, hc]
      have hi := i.2
      have hj := j.2
      simp only [symplJ]
      by_cases h1 : i.val + m = j.val
      · by_cases h2 : i.val = 0
        · have : j.val = m := by omega
          simp [h1, h2, this, show m ≠ 0 by omega]
        · have e1 : i.val ≠ m := by omega
          have e2 : j.val ≠ 0 := by omega
          have e3 : j.val ≠ m := by omega
          simp [h1, h2, e1, e2, e3]
      · by_cases h3 : j.val + m = i.val
        · by_cases h2 : j.val = 0
          · have : i.val = m := by omega
            simp [h1, h2, this, show m ≠ 0 by omega]
          · have e1 : j.val ≠ m := by omega
            have e2 : i.val ≠ 0 := by omega
            have e3 : i.val ≠ m := by omega
            simp [h1, h2, h3, e1, e2, e3]
        · simp [h1, h3]

end Verif
