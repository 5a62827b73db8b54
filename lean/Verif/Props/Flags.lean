import Verif.Props.PlaneGroups

/-!
# The flags `is_orthogonal` and `is_permutation` of a constructed group (C55, C57)
-/
namespace Verif
open Matrix List

/-- C57: whatever flags a subclass presets, after construction a group with `is_permutation` true also has `is_orthogonal` true. -/
theorem C57_permutation_orthogonal (d : Option ℕ) (lie disc : Option (List (LinOp ℝ))) (orth perm : Option Bool) (G : Grp)
    (hG : groupInit d lie disc orth perm = .ok G) (hp : G.isPerm = some true) : G.isOrth = true := by
  unfold groupInit at hG
  by_cases h1 : groupDim d lie disc = none ∧ (lie = none ∨ disc = none)
  · simp only [h1, true_and, if_true] at hG
    cases hG
  · simp only [if_neg h1] at hG
    cases hG
    rcases perm with _ | _ | _
    · have hp : (if _ then _ else _) = some true := hp
      by_contra hc
      rw [if_neg (fun h => hc (Bool.and_eq_true _ _ ▸ h).1)] at hp
      cases hp
    · simp at hp
    · simp

/-- C57: a preset `is_permutation` is kept, and so is a preset `is_orthogonal` unless `is_permutation` is preset to true. -/
theorem C57_preset (d : ℕ) (lie disc : Option (List (LinOp ℝ))) (orth perm : Option Bool) :
    ∃ G, groupInit (some d) lie disc orth perm = .ok G ∧ G.d = some d ∧ G.lie = lie.getD [] ∧ G.disc = disc.getD [] ∧
      (∀ b, perm = some b → G.isPerm = some b) ∧ (∀ b, orth = some b → perm ≠ some true → G.isOrth = b) := by
  refine ⟨_, rfl, rfl, rfl, rfl, ?_, ?_⟩
  · rintro b rfl
    simp
  · rintro b rfl hp
    simp [hp]

/-- C55: `Group.__init__` sets `is_permutation` only if it sets `is_orthogonal` and there are no infinitesimal generators; if the discrete
generators are exactly orthogonal (not just up to the tolerance of the test), every generator and every sample then is a permutation
matrix. -/
theorem C55_sound (d : Option ℕ) (lie disc : Option (List (LinOp ℝ))) (G : Grp) (n : ℕ)
    (hG : groupInit d lie disc none none = .ok G) (hd : G.d = some n) (hp : G.isPerm = some true) :
    G.isOrth = true ∧ G.lie = [] ∧ ((∀ h ∈ G.disc, (denseGen n h)ᵀ * denseGen n h = 1) →
      (∀ h ∈ G.disc, ∃ σ : Equiv.Perm (Fin n), denseGen n h = σ.permMatrix ℝ) ∧
      ∀ (z : List ℝ) (ks : List (List ℤ)) (orders : List (List ℕ)), (∀ o ∈ orders, ∀ i ∈ o, i < G.disc.length) →
        ∃ σ : Equiv.Perm (Fin n), noise2sample z ks (G.lie.map (denseGen n)) (G.disc.map (denseGen n)) orders = σ.permMatrix ℝ) := by
  have ho := C57_permutation_orthogonal _ _ _ _ _ G hG hp
  have hl : G.lie = [] := by
    rw [groupInit_eq] at hG
    by_cases h1 : groupDim d lie disc = none ∧ (lie = none ∨ disc = none)
    · rw [if_pos h1] at hG; cases hG
    · rw [if_neg h1] at hG
      cases hG
      dsimp only at ho hp ⊢
      rw [if_pos ho] at hp
      simp only [Option.some.injEq, permFlag, Bool.and_eq_true, beq_iff_eq, length_eq_zero_iff] at hp
      exact hp.1
  refine ⟨ho, hl, fun hd' => ?_⟩
  have hperm := (C57_constructor_partial d lie disc G n hG hd hd' hp).2
  have hm : ∀ h ∈ G.disc.map (denseGen n), ∃ σ : Equiv.Perm (Fin n), h = pm σ := by
    intro h hh
    obtain ⟨x, hx, rfl⟩ := mem_map.1 hh
    exact hperm x hx
  refine ⟨hperm, fun z ks orders hord => ?_⟩
  rw [hl]
  exact Generated.perm_of hm (sample_generated z ks orders (by simpa using hord))

/-- C55: conversely a group without infinitesimal generators, all of whose discrete generators are permutation matrices, gets both flags. -/
theorem C55_complete (n : ℕ) (h : LinOp ℝ) (t : List (LinOp ℝ)) (hc : h.sem.cols = n)
    (hp : ∀ x ∈ h :: t, ∃ σ : Equiv.Perm (Fin n), denseGen n x = σ.permMatrix ℝ) :
    ∃ G, groupInit none none (some (h :: t)) none none = .ok G ∧ G.d = some n ∧ G.disc = h :: t ∧ G.isOrth = true ∧ G.isPerm = some true := by
  have h1 : ∀ x ∈ (h :: t).map (denseGen n), ∃ σ : Equiv.Perm (Fin n), x = σ.permMatrix ℝ := by
    intro x hx
    obtain ⟨y, hy, rfl⟩ := mem_map.1 hx
    exact hp y hy
  have h2 := C55_converse _ h1
  have h3 : orthFlag n [] (h :: t) = true := C56_orthogonal_is_flagged n _ _ (by simp) fun x hx => h2.1 _ (mem_map_of_mem hx)
  refine ⟨_, groupInit_disc h t, by rw [hc], rfl, by rw [hc]; exact h3, ?_⟩
  rw [hc, if_pos h3]
  simp only [permFlag, h2.2, length_nil, BEq.rfl, Bool.true_and, Bool.or_true]

/-- C55 needs exact orthogonality: a shear by `1e-9` passes both tests and is not a permutation matrix. -/
theorem C55_tolerance : ∃ G, groupInit none none (some [ofMatrix !![(1 : ℝ), 1e-9; 0, 1]]) none none = .ok G ∧ G.isPerm = some true ∧
    ∃ h ∈ G.disc, ∀ σ : Equiv.Perm (Fin 2), denseGen 2 h ≠ σ.permMatrix ℝ := by
  have ho : orthFlag 2 [] [ofMatrix !![(1 : ℝ), 1e-9; 0, 1]] = true := by
    simp only [orthFlag, Bool.and_eq_true, Bool.or_eq_true, decide_eq_true_eq, map_cons, map_nil, dense_ofMatrix]
    refine ⟨Or.inl rfl, Or.inr ?_⟩
    have e1 : (!![(1 : ℝ), 1e-9; 0, 1]ᵀ * !![(1 : ℝ), 1e-9; 0, 1]) = !![1, 1e-9; 1e-9, 1 + 1e-18] := by
      ext i j
      fin_cases i <;> fin_cases j <;> simp [Matrix.mul_apply, Fin.sum_univ_two] <;> norm_num
    have e2 : (!![(1 : ℝ), 1e-9; 1e-9, 1 + 1e-18] - 1) = !![0, 1e-9; 1e-9, 1e-18] := by
      ext i j
      fin_cases i <;> fin_cases j <;> simp
    simp only [relErrDisc, map_cons, map_nil, e1, e2, meanAbs, List.sum_cons, List.sum_nil, length_cons, length_nil, Fin.sum_univ_two, Matrix.one_apply]
    norm_num [abs_of_pos]
  refine ⟨_, groupInit_disc _ _, ?_, ofMatrix !![(1 : ℝ), 1e-9; 0, 1], by simp, ?_⟩
  · show (if orthFlag 2 [] [ofMatrix !![(1 : ℝ), 1e-9; 0, 1]] then some (permFlag 2 [] [ofMatrix !![(1 : ℝ), 1e-9; 0, 1]]) else none) = some true
    rw [ho]
    simp only [permFlag, rowsOneOne, if_true, map_cons, map_nil, dense_ofMatrix, mem_singleton, forall_eq]
    simp only [length_nil, BEq.rfl, Bool.true_and, length_singleton, Option.some.injEq, Bool.or_eq_true, decide_eq_true_eq]
    right
    intro i
    rw [Finset.card_eq_one]
    refine ⟨i, ?_⟩
    ext j
    fin_cases i <;> fin_cases j <;> simp <;> norm_num
  · intro σ h
    rw [dense_ofMatrix] at h
    have := congrFun (congrFun h 0) 1
    have e := pm_apply σ 0 1
    rw [pm, ← this] at e
    revert e
    simp only [of_apply, cons_val', cons_val_zero, cons_val_one]
    split_ifs <;> norm_num

example : ∃ G, groupInit none none (some [.shift 5 1]) none none = .ok G ∧ G.d = some 5 ∧ G.isPerm = some true ∧
    ∀ h ∈ G.disc, (denseGen 5 h)ᵀ * denseGen 5 h = 1 := by
  have hp : ∃ σ, denseGen 5 (.shift 5 1) = pm σ := by
    refine ⟨⟨fun i => i - 1, fun i => i + 1, fun i => by simp, fun i => by simp⟩, ?_⟩
    ext i j
    rw [pm_apply, ← pow_one (denseGen 5 _), shift_pow 5 (by norm_num)]
    congr 1
    refine propext ?_
    revert i j
    decide
  obtain ⟨σ, hσ⟩ := hp
  obtain ⟨G, h1, h2, h3, _, h5⟩ := C55_complete 5 (.shift 5 1) [] rfl (by simpa using ⟨σ, hσ⟩)
  refine ⟨G, h1, h2, h5, ?_⟩
  rw [h3]
  simp only [mem_singleton, forall_eq, hσ]
  exact pm_orth σ

end Verif
