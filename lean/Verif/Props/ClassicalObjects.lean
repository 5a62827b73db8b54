import Verif.Model.ClassicalGroups
import Verif.Props.Classical
import Verif.Props.GroupObjects

/-! # C116: the classical groups as objects -/
namespace Verif
open Matrix List

theorem map_gens (n : ℕ) (a : Arr3 ℝ) : (a.gens n).map (denseGen n) = a.mats n := by
  rw [Arr3.gens, List.map_map]
  conv_rhs => rw [← List.map_id (a.mats n)]
  exact List.map_congr_left fun A _ => dense_ofMatrix A

theorem gens_nil (n : ℕ) (a : Arr3 ℝ) : a.gens n = [] ↔ a.mats n = [] := by simp [Arr3.gens]

theorem cols_ofMatrix {n : ℕ} (A : Matrix (Fin n) (Fin n) ℝ) : (ofMatrix A).sem.cols = n := rfl

/-- the dimension found by `Group.__init__` -/
theorem groupDim_gens {n : ℕ} {a : Arr3 ℝ} {disc : Option (List (LinOp ℝ))} (hd : disc = none ∨ ∃ b : Arr3 ℝ, disc = some (b.gens n))
    (ha : a.mats n ≠ []) : groupDim none (some (a.gens n)) disc = some n := by
  have hc : ∀ (b : Arr3 ℝ) A L, b.gens n = A :: L → A.sem.cols = n := by
    intro b A L h
    have : A ∈ b.gens n := by rw [h]; simp
    obtain ⟨M, -, rfl⟩ := List.mem_map.1 this
    rfl
  obtain ⟨A, L, h⟩ := List.exists_cons_of_ne_nil (mt (gens_nil n a).1 ha)
  rcases hd with rfl | ⟨b, rfl⟩
  · rw [h]
    simp [groupDim, hc a A L h]
  · rw [h]
    cases hb : b.gens n with
    | nil => simp [groupDim, hc a A L h]
    | cons B L' => simp [groupDim, hc b B L' hb]

/-- a group object made from a non-empty table -/
theorem init_table {n : ℕ} {a : Arr3 ℝ} (ha : a.mats n ≠ []) : groupInit none (some (a.gens n)) none none none =
    .ok ⟨some n, a.gens n, [], orthFlag n (a.gens n) [], if orthFlag n (a.gens n) [] then some false else none⟩ := by
  rw [groupInit_eq, groupDim_gens (.inl rfl) ha, if_neg (by simp)]
  have : permFlag n (a.gens n) [] = false := by
    have := mt (gens_nil n a).1 ha
    simp [permFlag, this]
  simp only [Option.getD_some, Option.getD_none, this]

theorem init_tables {n : ℕ} {a b : Arr3 ℝ} (ha : a.mats n ≠ []) : groupInit none (some (a.gens n)) (some (b.gens n)) none none =
    .ok ⟨some n, a.gens n, b.gens n, orthFlag n (a.gens n) (b.gens n), if orthFlag n (a.gens n) (b.gens n) then some false else none⟩ := by
  rw [groupInit_eq, groupDim_gens (.inr ⟨b, rfl⟩) ha, if_neg (by simp)]
  have : permFlag n (a.gens n) (b.gens n) = false := by
    have := mt (gens_nil n a).1 ha
    simp [permFlag, this]
  simp only [Option.getD_some, this]

theorem init_empty {n : ℕ} {a : Arr3 ℝ} (ha : a.mats n = []) : groupInit none (some (a.gens n)) none none none = .error .type := by
  rw [groupInit_eq, (gens_nil n a).2 ha, if_pos]
  simp [groupDim]

/-- The test for orthogonality fails if no entry of a generator cancels with its mirror image: the relative error is then at least
`2/(2+10⁻⁶d²)`. -/
theorem orthFlag_false {d : ℕ} {lie disc : List (LinOp ℝ)} (hne : lie ≠ [])
    (h : ∀ A ∈ lie.map (denseGen d), (∀ i j, 0 ≤ A i j * A j i) ∧ ∃ i j, 1 ≤ |A i j|) (hd : d ≤ 1000000) : orthFlag d lie disc = false := by
  obtain ⟨As, hAs⟩ : ∃ As, As = lie.map (denseGen d) := ⟨_, rfl⟩
  rw [← hAs] at h
  have hk : As ≠ [] := by rw [hAs]; simpa using hne
  have e1 : (As.map fun A => -Aᵀ - A).map (fun A => ∑ i, ∑ j, |A i j|) = As.map fun A => 2 * ∑ i, ∑ j, |A i j| := by
    rw [List.map_map]
    refine List.map_congr_left fun A hA => ?_
    have hc : ∀ i j, |(-Aᵀ - A) i j| = |A j i| + |A i j| := fun i j => by
      rw [Matrix.sub_apply, Matrix.neg_apply, transpose_apply, show -A j i - A i j = -(A j i + A i j) by ring, abs_neg]
      have := (h A hA).1 i j
      rcases le_total 0 (A i j) with h1 | h1 <;> rcases le_total 0 (A j i) with h2 | h2
      · rw [abs_of_nonneg h1, abs_of_nonneg h2, abs_of_nonneg (add_nonneg h2 h1)]
      · have h0 : A i j * A j i = 0 := le_antisymm (mul_nonpos_of_nonneg_of_nonpos h1 h2) this
        rcases mul_eq_zero.1 h0 with h0 | h0 <;> rw [h0] <;> simp
      · have h0 : A i j * A j i = 0 := le_antisymm (mul_nonpos_of_nonpos_of_nonneg h1 h2) this
        rcases mul_eq_zero.1 h0 with h0 | h0 <;> rw [h0] <;> simp
      · rw [abs_of_nonpos h1, abs_of_nonpos h2, abs_of_nonpos (add_nonpos h2 h1)]; ring
    simp only [Function.comp, hc, Finset.sum_add_distrib]
    rw [Finset.sum_comm, two_mul]
  have e2 : (As.map fun A => -Aᵀ).map (fun A => ∑ i, ∑ j, |A i j|) = As.map fun A => ∑ i, ∑ j, |A i j| := by
    rw [List.map_map]
    refine List.map_congr_left fun A hA => ?_
    simp only [Function.comp, Matrix.neg_apply, transpose_apply, abs_neg]
    rw [Finset.sum_comm]
  obtain ⟨S, hS⟩ : ∃ S, S = (As.map fun A => ∑ i, ∑ j, |A i j|).sum := ⟨_, rfl⟩
  have hSk : (As.length : ℝ) ≤ S := by
    rw [hS]
    have : ∀ L : List (Matrix (Fin d) (Fin d) ℝ), (∀ A ∈ L, ∃ i j, 1 ≤ |A i j|) → (L.length : ℝ) ≤ (L.map fun A => ∑ i, ∑ j, |A i j|).sum := by
      intro L
      induction L with
      | nil => simp
      | cons A L ih =>
        intro hL
        obtain ⟨i, j, hij⟩ := hL A (by simp)
        have h1 : |A i j| ≤ ∑ i, ∑ j, |A i j| :=
          (Finset.single_le_sum (f := fun j => |A i j|) (fun _ _ => abs_nonneg _) (Finset.mem_univ j)).trans
            (Finset.single_le_sum (f := fun i => ∑ j, |A i j|) (fun _ _ => Finset.sum_nonneg fun _ _ => abs_nonneg _) (Finset.mem_univ i))
        have := ih fun B hB => hL B (by simp [hB])
        simp only [List.length_cons, List.map_cons, List.sum_cons]
        push_cast
        linarith
    exact this As fun A hA => (h A hA).2
  have hkp : (0 : ℝ) < As.length := by exact_mod_cast List.length_pos_iff.2 hk
  have hdp : (0 : ℝ) < d := by
    obtain ⟨A, L, hA⟩ := List.exists_cons_of_ne_nil hk
    obtain ⟨i, -⟩ := (h A (by rw [hA]; simp)).2
    exact_mod_cast i.pos
  have hr : 1e-6 ≤ relErrLie As := by
    unfold relErrLie meanAbs
    rw [e1, e2, List.length_map, List.length_map, List.sum_map_mul_left, ← hS]
    have hx : 1e-12 ≤ S / (As.length * d * d) := by
      rw [le_div_iff₀ (by positivity)]
      have hd' : (d : ℝ) ≤ 1000000 := by exact_mod_cast hd
      have : (d : ℝ) * d ≤ 1000000 * 1000000 := mul_le_mul hd' hd' hdp.le (by norm_num)
      calc (1e-12 : ℝ) * (As.length * d * d) = As.length * (1e-12 * (d * d)) := by ring
        _ ≤ As.length * 1 := by gcongr; norm_num at this ⊢; linarith
        _ ≤ S := by linarith
    rw [mul_div_assoc]
    set x := S / (As.length * d * d)
    rw [le_div_iff₀ (by positivity)]
    norm_num at hx ⊢
    linarith
  unfold orthFlag
  rw [← hAs]
  have : lie.length ≠ 0 := by simpa using hne
  simp [this, not_lt.2 hr]


/-! ## Orthogonal groups -/

/-- C116: `SO(n)` for `n ≥ 2`: dimension, flags, elements. -/
theorem C116_so (n : ℕ) (hn : 2 ≤ n) : ∃ G, soGroup n = .ok G ∧ G.d = some n ∧ G.isOrth = true ∧ G.isPerm = some false ∧
    ∀ h, Generated (G.lie.map (denseGen n)) (G.disc.map (denseGen n)) h ↔ hᵀ * h = 1 ∧ h.det = 1 := by
  obtain ⟨a, ha, hl, -⟩ := C50_so_generators n
  obtain ⟨a', ha', hg⟩ := C115_so n
  rw [ha] at ha'
  cases ha'
  have hne : a.mats n ≠ [] := fun h => by
    rw [h] at hl
    have h1 : 2 ∣ n * (n - 1) := by
      obtain ⟨k, rfl⟩ : ∃ k, n = k + 1 := ⟨n - 1, by omega⟩
      rw [Nat.add_sub_cancel, mul_comm]
      exact (Nat.even_mul_succ_self k).two_dvd
    have h2 : 0 < n * (n - 1) := Nat.mul_pos (by omega) (by omega)
    simp only [List.length_nil] at hl
    omega
  have hf : orthFlag n (a.gens n) [] = true := C56_orthogonal_is_flagged n _ _ (fun A hA => so_mats_anti ha _ (by
    rw [← map_gens]; exact List.mem_map_of_mem hA)) (by simp)
  have e : soGroup n = groupInit none (some (a.gens n)) none none none := by rw [soGroup, ha]; rfl
  refine ⟨_, e.trans (init_table hne), rfl, hf, ?_, ?_⟩
  · simp [hf]
  · simpa only [map_gens, List.map_nil] using hg

/-- C116, a limit: `SO(1)` and `SO(0)` raise `TypeError`, because no dimension can be read off an empty table. -/
theorem C116_so_small (n : ℕ) (hn : n < 2) : soGroup n = .error .type := by
  obtain ⟨a, ha, hl, -⟩ := C50_so_generators n
  rw [soGroup, ha]
  refine init_empty (List.length_eq_zero_iff.1 ?_)
  rw [hl]
  interval_cases n <;> rfl

/-- C116: `O(n)` for `n ≥ 1`. -/
theorem C116_o (n : ℕ) (hn : 0 < n) : ∃ G, oGroup n = .ok G ∧ G.d = some n ∧ G.isOrth = true ∧ G.isPerm = some false ∧
    ∀ h, Generated (G.lie.map (denseGen n)) (G.disc.map (denseGen n)) h ↔ hᵀ * h = 1 := by
  obtain ⟨a, b, ha, hb, hg⟩ := C115_o n hn
  have hm := oDisc_mats n b hb
  have hbg : b.gens n = [ofMatrix (Matrix.diagonal fun i : Fin n => if i.val = 0 then -1 else 1)] := by rw [Arr3.gens, hm]; rfl
  have hd : groupDim none (some (a.gens n)) (some (b.gens n)) = some n := by rw [hbg]; rfl
  have hf : orthFlag n (a.gens n) (b.gens n) = true := by
    refine C56_orthogonal_is_flagged n _ _ (fun A hA => so_mats_anti ha _ (by rw [← map_gens]; exact List.mem_map_of_mem hA)) fun h hh => ?_
    refine (hg _).1 (.gen ?_)
    rw [← map_gens]
    exact List.mem_map_of_mem hh
  have hp : permFlag n (a.gens n) (b.gens n) = false := by
    have : rowsOneOne ((b.gens n).map (denseGen n)) = false := by
      rw [map_gens, hm]
      simp only [rowsOneOne, List.mem_singleton, forall_eq, decide_eq_false_iff_not, not_forall]
      refine ⟨⟨0, hn⟩, ?_⟩
      rw [Finset.filter_false_of_mem]
      · simp
      · intro j _
        rw [diagonal_apply]
        by_cases h : (⟨0, hn⟩ : Fin n) = j
        · rw [if_pos h]; norm_num
        · rw [if_neg h]; norm_num
    simp only [permFlag, this, Bool.or_false]
    rw [hbg]
    simp
  have e : oGroup n = .ok ⟨some n, a.gens n, b.gens n, orthFlag n (a.gens n) (b.gens n), some false⟩ := by
    have e : oGroup n = groupInit none (some (a.gens n)) (some (b.gens n)) none none := by rw [oGroup, hb, ha]; rfl
    rw [e, groupInit_eq, hd, if_neg (by simp)]
    simp [hf, hp]
  refine ⟨_, e, rfl, hf, rfl, ?_⟩
  · simpa only [map_gens] using hg

/-- C116, a limit: `O(0)` raises `IndexError`. -/
theorem C116_o_small : oGroup 0 = .error .index := by
  rw [oGroup, oDisc, Arr3.set, if_neg (by simp)]
  rfl

/-! ## Linear and symplectic groups -/

/-- what the loops leave in the tables: no entry cancels with its mirror image, and some entry is one -/
theorem table_entries {n : ℕ} (L : List (Sl ℝ)) (h : ∀ f ∈ L, (∀ i j : ℕ, 0 ≤ f i j * f j i) ∧ ∃ i j, i < n ∧ j < n ∧ 1 ≤ |f i j|) :
    ∀ A ∈ (tab L.length n L : Arr3 ℝ).mats n, (∀ i j, 0 ≤ A i j * A j i) ∧ ∃ i j, 1 ≤ |A i j| := by
  rw [mats_tab]
  intro A hA
  obtain ⟨f, hf, rfl⟩ := List.mem_map.1 hA
  obtain ⟨h1, i, j, hi, hj, h2⟩ := h f hf
  exact ⟨fun i j => h1 i j, ⟨i, hi⟩, ⟨j, hj⟩, h2⟩

theorem init_not_orth {n : ℕ} {a : Arr3 ℝ} (hne : a.mats n ≠ []) (he : ∀ A ∈ a.mats n, (∀ i j, 0 ≤ A i j * A j i) ∧ ∃ i j, 1 ≤ |A i j|)
    (hn : n ≤ 1000000) : ∃ G, groupInit none (some (a.gens n)) none none none = .ok G ∧ G.d = some n ∧ G.isOrth = false ∧ G.isPerm = none ∧
      G.lie.map (denseGen n) = a.mats n ∧ G.disc = [] := by
  have hf : orthFlag n (a.gens n) [] = false := orthFlag_false (mt (gens_nil n a).1 hne) (by rw [map_gens]; exact he) hn
  exact ⟨_, init_table hne, rfl, hf, by simp [hf], map_gens n a, rfl⟩

/-- C116: `GL(n)` for `n ≥ 1` (and `n` at most a million, see `C116_gl_counterexample`) is not taken for an orthogonal group. -/
theorem C116_gl (n : ℕ) (hn : 0 < n) (hm : n ≤ 1000000) : ∃ G, glGroup n = .ok G ∧ G.d = some n ∧ G.isOrth = false ∧ G.isPerm = none ∧
    ∀ h, Generated (G.lie.map (denseGen n)) (G.disc.map (denseGen n)) h ↔ 0 < h.det := by
  obtain ⟨a, ha, hl, -⟩ := C53_gl_generators n
  obtain ⟨a', ha', hg⟩ := C115_gl n
  rw [ha] at ha'
  cases ha'
  have hne : a.mats n ≠ [] := fun h => by
    rw [h] at hl
    have : 0 < n * n := Nat.mul_pos hn hn
    simp at hl
    omega
  have he : ∀ A ∈ a.mats n, (∀ i j, 0 ≤ A i j * A j i) ∧ ∃ i j, 1 ≤ |A i j| := by
    rw [glLie_eq] at ha
    cases ha
    have := table_entries (n := n) ((allPairs n n).map glSl) ?_
    · rwa [List.length_map, allPairs_length] at this
    · intro f hf
      obtain ⟨p, hp, rfl⟩ := List.mem_map.1 hf
      refine ⟨fun i j => ?_, p.1, p.2, (mem_allPairs.1 hp).1, (mem_allPairs.1 hp).2, by simp [glSl, upd]⟩
      simp only [glSl, upd]
      split_ifs <;> norm_num
  obtain ⟨G, h1, h2, h3, h4, h5, h6⟩ := init_not_orth hne he hm
  refine ⟨G, by rw [glGroup, ha]; exact h1, h2, h3, h4, ?_⟩
  rw [h5, h6]
  exact hg

/-- C116, a limit of the test for orthogonality, which compares means over all entries with a fixed tolerance: in exact arithmetic it
would take `GL(n)` for an orthogonal group from about `n = 1.4` million on (`C116_gl` is the range below a million). -/
theorem C116_gl_counterexample : ∃ G, glGroup 2000000 = .ok G ∧ G.isOrth = true := by
  obtain ⟨n, hn⟩ : ∃ n : ℕ, n = 2000000 := ⟨_, rfl⟩
  rw [← hn]
  obtain ⟨a, ha, hl, -⟩ := C53_gl_generators n
  have hn0 : 0 < n := by omega
  have hne : a.mats n ≠ [] := fun h => by
    rw [h] at hl
    have : 0 < n * n := Nat.mul_pos hn0 hn0
    simp only [List.length_nil] at hl
    omega
  have e : glGroup n = groupInit none (some (a.gens n)) none none none := by rw [glGroup, ha]; rfl
  refine ⟨_, e.trans (init_table hne), ?_⟩
  have hS : ∀ A ∈ a.mats n, ∑ i, ∑ j, |A i j| = 1 := by
    rw [glLie_eq] at ha
    cases ha
    have := mats_tab n ((allPairs n n).map (glSl (R := ℝ)))
    rw [List.length_map, allPairs_length] at this
    rw [this]
    intro A hA
    obtain ⟨f, hf, rfl⟩ := List.mem_map.1 hA
    obtain ⟨p, hp, rfl⟩ := List.mem_map.1 hf
    obtain ⟨p1, p2⟩ := mem_allPairs.1 hp
    rw [Finset.sum_eq_single ⟨p.1, p1⟩, Finset.sum_eq_single ⟨p.2, p2⟩]
    · simp [glSl, upd]
    · intro j _ hj
      have : j.val ≠ p.2 := fun h => hj (Fin.ext h)
      simp [glSl, upd, this]
    · simp
    · intro i _ hi
      have : i.val ≠ p.1 := fun h => hi (Fin.ext h)
      simp [glSl, upd, this]
    · simp
  have hsum : ((a.mats n).map fun A => ∑ i, ∑ j, |A i j|).sum = (n * n : ℕ) := by
    rw [List.map_congr_left hS, List.map_const', List.sum_replicate, hl, nsmul_eq_mul, mul_one]
  have hle : (((a.mats n).map fun A => -Aᵀ - A).map fun A => ∑ i, ∑ j, |A i j|).sum ≤ 2 * (n * n : ℕ) := by
    rw [← hsum, ← List.sum_map_mul_left, List.map_map]
    refine List.sum_le_sum fun A _ => ?_
    calc ∑ i, ∑ j, |(-Aᵀ - A) i j| ≤ ∑ i, ∑ j, (|A j i| + |A i j|) := by
          refine Finset.sum_le_sum fun i _ => Finset.sum_le_sum fun j _ => ?_
          rw [Matrix.sub_apply, Matrix.neg_apply, transpose_apply, show -A j i - A i j = -(A j i + A i j) by ring, abs_neg]
          exact abs_add_le _ _
      _ = 2 * ∑ i, ∑ j, |A i j| := by
          simp only [Finset.sum_add_distrib]
          rw [Finset.sum_comm, two_mul]
  have hneg : (((a.mats n).map fun A => -Aᵀ).map fun A => ∑ i, ∑ j, |A i j|).sum = (n * n : ℕ) := by
    rw [← hsum, List.map_map]
    congr 1
    refine List.map_congr_left fun A _ => ?_
    simp only [Function.comp, Matrix.neg_apply, transpose_apply, abs_neg]
    rw [Finset.sum_comm]
  have hr : relErrLie (a.mats n) < 1e-6 := by
    have hnr : (n : ℝ) = 2000000 := by rw [hn]; norm_num
    unfold relErrLie meanAbs
    rw [List.length_map, List.length_map, hneg, hsum, hl, div_lt_iff₀ (by positivity)]
    push_cast at hle ⊢
    rw [hnr] at hle ⊢
    rw [div_lt_iff₀ (by positivity)]
    refine lt_of_le_of_lt hle ?_
    norm_num
  show orthFlag n (a.gens n) [] = true
  unfold orthFlag
  rw [map_gens]
  simp [hr]

/-- C116: `SL(n)` for `n ≥ 2`. -/
theorem C116_sl (n : ℕ) (hn : 2 ≤ n) (hm : n ≤ 1000000) : ∃ G, slGroup n = .ok G ∧ G.d = some n ∧ G.isOrth = false ∧ G.isPerm = none ∧
    ∀ h, Generated (G.lie.map (denseGen n)) (G.disc.map (denseGen n)) h ↔ h.det = 1 := by
  have hn0 : n ≠ 0 := by omega
  obtain ⟨a, ha, hl, -⟩ := C53_sl_generators n hn0
  obtain ⟨a', ha', hg⟩ := C115_sl n hn0
  rw [ha] at ha'
  cases ha'
  have hne : a.mats n ≠ [] := fun h => by
    rw [h] at hl
    have : 2 * 2 ≤ n * n := Nat.mul_le_mul hn hn
    simp at hl
    omega
  have he : ∀ A ∈ a.mats n, (∀ i j, 0 ≤ A i j * A j i) ∧ ∃ i j, 1 ≤ |A i j| := by
    rw [slLie_eq n hn0] at ha
    cases ha
    have := table_entries (n := n) ((offPairs n).map glSl ++ (range (n - 1)).map (slDiag n)) ?_
    · have hlen : ((offPairs n).map glSl ++ (range (n - 1)).map (slDiag n) : List (Sl ℝ)).length = n * n - 1 := by
        rw [List.length_append, List.length_map, List.length_map, offPairs_length, List.length_range]
        obtain ⟨m, rfl⟩ := Nat.exists_eq_succ_of_ne_zero hn0
        simp only [Nat.succ_eq_add_one, Nat.add_sub_cancel]
        rw [show (m + 1) * (m + 1) = (m + 1) * m + m + 1 by ring]
        omega
      rwa [hlen] at this
    · intro f hf
      rcases List.mem_append.1 hf with hf | hf
      · obtain ⟨p, hp, rfl⟩ := List.mem_map.1 hf
        refine ⟨fun i j => ?_, p.1, p.2, (mem_offPairs.1 hp).1, (mem_offPairs.1 hp).2.1, by simp [glSl, upd]⟩
        simp only [glSl, upd]
        split_ifs <;> norm_num
      · obtain ⟨l, hl, rfl⟩ := List.mem_map.1 hf
        refine ⟨fun i j => ?_, n - 1, n - 1, by omega, by omega, by simp [slDiag, upd]⟩
        simp only [slDiag, upd]
        split_ifs <;> first | omega | norm_num
  obtain ⟨G, h1, h2, h3, h4, h5, h6⟩ := init_not_orth hne he hm
  refine ⟨G, by rw [slGroup, ha]; exact h1, h2, h3, h4, ?_⟩
  rw [h5, h6]
  exact hg

/-- C116: `Sp(m)` for `m ≥ 1`; its dimension is `2m`. -/
theorem C116_sp (m : ℕ) (h0 : 0 < m) (hm : 2 * m ≤ 1000000) : ∃ G, spGroup m = .ok G ∧ G.d = some (2 * m) ∧ G.isOrth = false ∧ G.isPerm = none ∧
    ∀ h, Generated (G.lie.map (denseGen (2 * m))) (G.disc.map (denseGen (2 * m))) h ↔ hᵀ * symplJ m * h = symplJ m := by
  obtain ⟨a, ha, hl, -⟩ := C52_sp_generators m
  obtain ⟨a', ha', hg⟩ := C115_sp m
  rw [ha] at ha'
  cases ha'
  have hne : a.mats (2 * m) ≠ [] := fun h => by
    rw [h] at hl
    have : 0 < m * (2 * m + 1) := Nat.mul_pos h0 (by omega)
    simp only [List.length_nil] at hl
    omega
  have he : ∀ A ∈ a.mats (2 * m), (∀ i j, 0 ≤ A i j * A j i) ∧ ∃ i j, 1 ≤ |A i j| := by
    rw [spLie_eq m] at ha
    cases ha
    have := table_entries (n := 2 * m) ((allPairs m m).map (spA m) ++ (lePairs m).flatMap (spCB m)) ?_
    · have hlen : ((allPairs m m).map (spA m) ++ (lePairs m).flatMap (spCB m) : List (Sl ℝ)).length = m * (2 * m + 1) := by
        rw [List.length_append, List.length_map, allPairs_length, List.length_flatMap]
        simp only [spCB, List.length_cons, List.length_nil, List.map_const', List.sum_replicate, smul_eq_mul]
        have := lePairs_length m
        nlinarith
      rwa [hlen] at this
    · intro f hf
      rcases List.mem_append.1 hf with hf | hf
      · obtain ⟨p, hp, rfl⟩ := List.mem_map.1 hf
        obtain ⟨p1, p2⟩ := mem_allPairs.1 hp
        refine ⟨fun i j => ?_, m + p.2, m + p.1, by omega, by omega, by simp [spA, upd]⟩
        simp only [spA, upd]
        split_ifs <;> first | omega | norm_num
      · obtain ⟨p, hp, hf⟩ := List.mem_flatMap.1 hf
        obtain ⟨p1, p2⟩ := mem_lePairs.1 hp
        simp only [spCB, List.mem_cons, List.not_mem_nil, or_false] at hf
        rcases hf with rfl | rfl
        · refine ⟨fun i j => ?_, m + p.2, p.1, by omega, by omega, by simp [spC, upd]⟩
          simp only [spC, upd]
          split_ifs <;> norm_num
        · refine ⟨fun i j => ?_, p.2, m + p.1, by omega, by omega, by simp [spB, upd]⟩
          simp only [spB, upd]
          split_ifs <;> norm_num
  obtain ⟨G, h1, h2, h3, h4, h5, h6⟩ := init_not_orth hne he hm
  refine ⟨G, by rw [spGroup, ha]; exact h1, h2, h3, h4, ?_⟩
  rw [h5, h6]
  exact hg

/-- C116, limits: the smallest sizes of the linear and symplectic groups raise. -/
theorem C116_linear_small : glGroup 0 = .error .type ∧ slGroup 0 = .error .value ∧ slGroup 1 = .error .type ∧ spGroup 0 = .error .type := by
  refine ⟨?_, rfl, ?_, ?_⟩
  · obtain ⟨a, ha, hl, -⟩ := C53_gl_generators 0
    rw [glGroup, ha]
    exact init_empty (List.length_eq_zero_iff.1 (by rw [hl]))
  · obtain ⟨a, ha, hl, -⟩ := C53_sl_generators 1 one_ne_zero
    rw [slGroup, ha]
    exact init_empty (List.length_eq_zero_iff.1 (by rw [hl]))
  · obtain ⟨a, ha, hl, -⟩ := C52_sp_generators 0
    rw [spGroup, ha]
    exact init_empty (List.length_eq_zero_iff.1 (by rw [hl]))

end Verif
