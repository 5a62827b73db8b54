import Verif.Lemmas.Laurent
import Verif.Props.Classical
import Verif.Props.SmallGroups
import Verif.Props.Emlp

/-!
# Symmetries a network has beyond those generated by its group (C117)

`GL(n)`, `Scaling(n)`, `SO13p()` and `SO11p()` generate only the component of the identity of the group they are named after (C115).
What is invariant under it is invariant under the whole group nevertheless, so networks built for them are equivariant under more
matrices than those the group generates.
-/
namespace Verif
open List Matrix

section
variable {n : ℕ} {lie : List (Matrix (Fin n) (Fin n) ℝ)} {S : Matrix (Fin n) (Fin n) ℝ → Prop}

theorem diag_laurent {f : Fin n → ℝ → ℝ} (h : ∀ i, Laurent (f i)) (i j : Fin n) : Laurent fun t => diagonal (fun i => f i t) i j := by
  by_cases e : i = j
  · subst e; simpa using h i
  · simpa [diagonal_apply_ne _ e] using Laurent.const 0

/-- the matrix of the boost by `log t` in the plane of the first two coordinates -/
noncomputable def boostMat (n : ℕ) (t : ℝ) : Matrix (Fin n) (Fin n) ℝ := Matrix.of fun i j =>
  if i.val < 2 ∧ j.val < 2 then (if i = j then (t + t⁻¹) / 2 else (t - t⁻¹) / 2) else if i = j then 1 else 0

theorem boost_laurent (n : ℕ) (i j : Fin n) : Laurent fun t => boostMat n t i j := by
  simp only [boostMat, Matrix.of_apply]
  split_ifs
  · simpa [div_eq_mul_inv] using (Laurent.id.add Laurent.inv).mul (Laurent.const 2⁻¹)
  · simpa [div_eq_mul_inv] using (Laurent.id.sub Laurent.inv).mul (Laurent.const 2⁻¹)
  · exact Laurent.const 1
  · exact Laurent.const 0

theorem boost_four (t : ℝ) : boostMat 4 t = !![(t + t⁻¹) / 2, (t - t⁻¹) / 2, 0, 0; (t - t⁻¹) / 2, (t + t⁻¹) / 2, 0, 0; 0, 0, 1, 0; 0, 0, 0, 1] := by
  ext i j
  fin_cases i <;> fin_cases j <;> rfl

theorem boost_two (t : ℝ) : boostMat 2 t = !![(t + t⁻¹) / 2, (t - t⁻¹) / 2; (t - t⁻¹) / 2, (t + t⁻¹) / 2] := by
  ext i j
  fin_cases i <;> fin_cases j <;> rfl

theorem minkowski_four : minkowski 4 = !![1, 0, 0, 0; 0, -1, 0, 0; 0, 0, -1, 0; 0, 0, 0, -1] := by
  ext i j
  fin_cases i <;> fin_cases j <;> simp [minkowski, diagonal]

theorem minkowski_two : minkowski 2 = !![1, 0; 0, -1] := by
  ext i j
  fin_cases i <;> fin_cases j <;> simp [minkowski, diagonal]

theorem boost_mul_inv {t : ℝ} (ht : t ≠ 0) (h : n = 4 ∨ n = 2) : boostMat n t * boostMat n t⁻¹ = 1 := by
  rcases h with rfl | rfl
  · rw [boost_four, boost_four]
    ext i j
    fin_cases i <;> fin_cases j <;> simp [Matrix.mul_apply, Fin.sum_univ_four] <;> field_simp <;> ring
  · rw [boost_two, boost_two]
    ext i j
    fin_cases i <;> fin_cases j <;> simp [Matrix.mul_apply, Fin.sum_univ_two] <;> field_simp <;> ring

theorem boost_form {t : ℝ} (ht : t ≠ 0) (h : n = 4 ∨ n = 2) : (boostMat n t)ᵀ * minkowski n * boostMat n t = minkowski n := by
  rcases h with rfl | rfl
  · rw [boost_four, minkowski_four]
    ext i j
    fin_cases i <;> fin_cases j <;> simp [Matrix.mul_apply, Fin.sum_univ_four] <;> field_simp <;> ring
  · rw [boost_two, minkowski_two]
    ext i j
    fin_cases i <;> fin_cases j <;> simp [Matrix.mul_apply, Fin.sum_univ_two] <;> field_simp <;> ring

theorem boost_det {t : ℝ} (ht : t ≠ 0) (h : n = 4 ∨ n = 2) : (boostMat n t).det = 1 := by
  rcases h with rfl | rfl
  · rw [boost_four]
    simp [Matrix.det_succ_row_zero, Fin.sum_univ_succ, Fin.succAbove]
    field_simp; ring
  · rw [boost_two]
    simp [Matrix.det_fin_two]
    field_simp; ring

theorem inv_laurent {γ δ : ℝ → Matrix (Fin n) (Fin n) ℝ} (h : ∀ t, t ≠ 0 → γ t * δ t = 1) (hδ : ∀ i j, Laurent fun t => δ t i j) (i j : Fin n) :
    Laurent fun t => (γ t)⁻¹ i j :=
  (hδ i j).congr fun t ht => by rw [Matrix.inv_eq_right_inv (h t ht)]

theorem generated_two {D h : Matrix (Fin n) (Fin n) ℝ} (hD : D * D = 1) (hh : Generated lie [] (h * D)) : Generated lie [D] h := by
  have : h = h * D * D := by rw [Matrix.mul_assoc, hD, Matrix.mul_one]
  rw [this]
  exact .mul (hh.mono (fun _ h => h) (by simp)) (.gen (by simp))

theorem scaling_mats (n : ℕ) : (scalingLie n : Arr3 ℝ).mats n = [1] := by
  simp only [Arr3.mats, scalingLie, show List.range 1 = [0] from rfl, List.map_cons, List.map_nil]
  congr 1
  ext i j
  simp [Matrix.one_apply, Fin.val_inj]

theorem scaling_generated {t : ℝ} (ht : 0 < t) : Generated ((scalingLie n : Arr3 ℝ).mats n) [] (t • (1 : Matrix (Fin n) (Fin n) ℝ)) := by
  have : t • (1 : Matrix (Fin n) (Fin n) ℝ) = NormedSpace.exp (Real.log t • (1 : Matrix (Fin n) (Fin n) ℝ)) := by
    rw [smul_one_eq_diagonal, smul_one_eq_diagonal, Matrix.exp_diagonal]
    congr 1
    funext i
    rw [Pi.coe_exp, ← Real.exp_eq_exp_ℝ, Real.exp_log ht]
  rw [this, scaling_mats]
  exact .exp (Submodule.smul_mem _ _ (Submodule.subset_span (by simp)))

theorem boost_curve (hn : n = 4 ∨ n = 2) (hg : ∀ h, hᵀ * minkowski n * h = minkowski n → h.det = 1 → (∀ i : Fin n, i.val = 0 → 0 < h i i) → Generated lie [] h) :
    ∃ γ : ℝ → Matrix (Fin n) (Fin n) ℝ,
    (∀ i j, Laurent fun t => γ t i j) ∧ (∀ i j, Laurent fun t => (γ t)⁻¹ i j) ∧ (∀ t, 0 < t → Generated lie [] (γ t)) ∧
    IsUnit (γ (-1)).det ∧ (γ 2)ᵀ * γ 2 ≠ 1 ∧ ∀ h, hᵀ * minkowski n * h = minkowski n ∧ h.det = 1 → Generated lie [γ (-1)] h := by
  have hD : boostMat n (-1) = diagonal fun i : Fin n => if i.val < 2 then -1 else 1 := by
    ext i j
    simp only [boostMat, Matrix.of_apply, diagonal_apply]
    by_cases e : i = j
    · subst e; by_cases h2 : i.val < 2 <;> simp [h2] <;> norm_num
    · by_cases h2 : i.val < 2 ∧ j.val < 2 <;> simp [h2, e] <;> norm_num
  have hDD : boostMat n (-1) * boostMat n (-1) = 1 := by
    have := boost_mul_inv (n := n) (t := -1) (by norm_num) hn
    rwa [show (-1 : ℝ)⁻¹ = -1 by norm_num] at this
  refine ⟨boostMat n, boost_laurent n, inv_laurent (δ := fun t => boostMat n t⁻¹) (fun t ht => boost_mul_inv ht hn) (fun i j => ?_),
    fun t ht => hg _ (boost_form ht.ne' hn) (boost_det ht.ne' hn) fun i hi => ?_, by rw [boost_det (by norm_num) hn]; simp, ?_, fun h ⟨h1, h2⟩ => ?_⟩
  · simp only [boostMat, Matrix.of_apply, inv_inv]
    split_ifs
    · simpa [div_eq_mul_inv] using (Laurent.inv.add Laurent.id).mul (Laurent.const 2⁻¹)
    · simpa [div_eq_mul_inv] using (Laurent.inv.sub Laurent.id).mul (Laurent.const 2⁻¹)
    · exact Laurent.const 1
    · exact Laurent.const 0
  · simp only [boostMat, Matrix.of_apply]
    rw [if_pos (by omega), if_pos trivial]
    have := inv_pos.2 ht
    positivity
  · rcases hn with rfl | rfl
    · intro e
      have := congrFun (congrFun e 0) 0
      rw [boost_four] at this
      simp [Matrix.mul_apply, Fin.sum_univ_four] at this
      norm_num at this
    · intro e
      have := congrFun (congrFun e 0) 0
      rw [boost_two] at this
      simp [Matrix.mul_apply, Fin.sum_univ_two] at this
      norm_num at this
  · have hpos : 0 < n := by omega
    have hne : h ⟨0, hpos⟩ ⟨0, hpos⟩ ≠ 0 := by
      intro h0
      have e := congrFun (congrFun h1 ⟨0, hpos⟩) ⟨0, hpos⟩
      unfold minkowski at e
      rw [Matrix.mul_apply] at e
      simp only [Matrix.mul_diagonal, transpose_apply, diagonal_apply_eq, if_true] at e
      have : ∑ k : Fin n, h k ⟨0, hpos⟩ * (if k.val = 0 then (1 : ℝ) else -1) * h k ⟨0, hpos⟩ ≤ 0 := by
        refine Finset.sum_nonpos fun k _ => ?_
        by_cases hk : k.val = 0
        · rw [show k = ⟨0, hpos⟩ from Fin.ext hk, h0]; simp
        · rw [if_neg hk]; nlinarith [mul_self_nonneg (h k ⟨0, hpos⟩)]
      linarith
    rcases lt_or_gt_of_ne hne with h3 | h3
    · refine generated_two hDD (hg _ ?_ ?_ fun i hi => ?_)
      · have := boost_form (n := n) (t := -1) (by norm_num) hn
        rw [transpose_mul, show (boostMat n (-1))ᵀ * hᵀ * minkowski n * (h * boostMat n (-1)) =
          (boostMat n (-1))ᵀ * (hᵀ * minkowski n * h) * boostMat n (-1) by simp only [Matrix.mul_assoc], h1, this]
      · rw [det_mul, h2, boost_det (by norm_num) hn, one_mul]
      · rw [show i = ⟨0, hpos⟩ from Fin.ext hi, hD, Matrix.mul_diagonal]
        simp; exact h3
    · exact (hg h h1 h2 fun i hi => by rw [show i = ⟨0, hpos⟩ from Fin.ext hi]; exact h3).mono (fun _ h => h) (by simp)

/-- The curve through the other component. -/
theorem WholeGroup.curve (hS : WholeGroup n lie S) : ∃ γ : ℝ → Matrix (Fin n) (Fin n) ℝ,
    (∀ i j, Laurent fun t => γ t i j) ∧ (∀ i j, Laurent fun t => (γ t)⁻¹ i j) ∧ (∀ t, 0 < t → Generated lie [] (γ t)) ∧
    IsUnit (γ (-1)).det ∧ (γ 2)ᵀ * γ 2 ≠ 1 ∧ ∀ h, S h → Generated lie [γ (-1)] h := by
  cases hS with
  | @gl a hn ha =>
    obtain ⟨a', ha', hgl⟩ := C115_gl n
    obtain rfl : a = a' := Except.ok.inj (ha.symm.trans ha')
    have hdet : ∀ t : ℝ, (diagonal fun i : Fin n => if i.val = 0 then t else 1).det = t := by
      intro t
      rw [det_diagonal, Finset.prod_eq_single (⟨0, hn⟩ : Fin n)]
      · simp
      · intro i _ hi
        rw [if_neg fun h => hi (Fin.ext h)]
      · simp
    refine ⟨fun t => diagonal fun i => if i.val = 0 then t else 1, diag_laurent (f := fun i t => if i.val = 0 then t else 1) fun i => ?_,
      inv_laurent (δ := fun t => diagonal fun i => if i.val = 0 then t⁻¹ else 1) (fun t ht => ?_)
        (diag_laurent (f := fun i t => if i.val = 0 then t⁻¹ else 1) fun i => ?_), fun t ht => (hgl _).2 (by rw [hdet]; exact ht), ?_, fun e => ?_, fun h hh => ?_⟩
    · split_ifs
      · exact Laurent.id
      · exact Laurent.const 1
    · rw [diagonal_mul_diagonal, ← diagonal_one]
      congr 1
      funext i
      split_ifs
      · exact mul_inv_cancel₀ ht
      · simp
    · split_ifs
      · exact Laurent.inv
      · exact Laurent.const 1
    · simp only; rw [hdet]; simp
    · have := congrFun (congrFun e ⟨0, hn⟩) ⟨0, hn⟩
      rw [diagonal_transpose, diagonal_mul_diagonal, diagonal_apply_eq, one_apply_eq] at this
      norm_num at this
    · rcases lt_or_gt_of_ne hh.ne_zero with h1 | h1
      · refine generated_two ?_ ((hgl _).2 (by rw [det_mul, hdet]; linarith))
        rw [diagonal_mul_diagonal, ← diagonal_one]
        congr 1
        funext i
        split_ifs <;> simp
      · exact ((hgl _).2 h1).mono (fun _ h => h) (by simp)
  | scaling hn =>
    refine ⟨fun t => t • 1, fun i j => ?_, inv_laurent (δ := fun t => t⁻¹ • 1) (fun t ht => ?_) fun i j => ?_, fun t ht => scaling_generated ht, ?_, fun e => ?_, ?_⟩
    · simpa using Laurent.id.mul (Laurent.const _)
    · simp [smul_smul, ht]
    · simpa using Laurent.inv.mul (Laurent.const _)
    · simp [det_neg]
    · have := congrFun (congrFun e ⟨0, hn⟩) ⟨0, hn⟩
      simp [smul_smul] at this
      norm_num at this
    · rintro h ⟨c, hc, rfl⟩
      rcases lt_or_gt_of_ne hc with h1 | h1
      · refine generated_two (by simp) ?_
        have := scaling_generated (n := n) (neg_pos.2 h1)
        simpa using this
      · exact (scaling_generated h1).mono (fun _ h => h) (by simp)
  | @so13p a hn ha =>
    subst hn
    obtain ⟨a', ha', hg⟩ := C115_so13p
    obtain rfl : a = a' := Except.ok.inj (ha.symm.trans ha')
    exact boost_curve (.inl rfl) fun h h1 h2 h3 => (hg h).2 ⟨h1, h2, h3 0 rfl⟩
  | so11p hn =>
    subst hn
    exact boost_curve (.inr rfl) fun h h1 h2 h3 => (C115_so11p h).2 ⟨h1, h2, h3 0 rfl⟩

end

section
variable {W : World} {g : Gid} {N : ℕ} {custom : ∀ k g, AtomRep ℝ (W.d g) (W.usize k g)}
  {lie disc : ∀ g, List (Matrix (Fin (W.d g)) (Fin (W.d g)) ℝ)} {S : Matrix (Fin (W.d g)) (Fin (W.d g)) ℝ → Prop}

theorem elem_only {r : Rep} (hr : r.WF W) {g : Gid} {h : Matrix (Fin (W.d g)) (Fin (W.d g)) ℝ} :
    (r.mat ((Interp.elem W custom g h).only W g)) = r.mat (Interp.elem W custom g h) := by
  unfold Interp.elem
  rw [Rep.mat_congr ((at_sized _).only g) _ _ hr]
  · intro k g'
    simp only [Interp.only]
    by_cases e : g' = g
    · rw [if_pos e]
    · rw [if_neg e]
      show DMat.one _ = DMat.ofMatrix ((stdAtoms W custom k g').rho (oneAt W g h g'))
      rw [oneAt_ne e, (stdAtoms W custom k g').one, DMat.ofMatrix_one]
  · intro k g'
    simp only [Interp.only]
    by_cases e : g' = g
    · rw [if_pos e]
    · rw [if_neg e]
      show DMat.one _ = DMat.ofMatrix ((stdAtoms W custom k g').rho (oneAt W g h g'))⁻¹.transpose
      rw [oneAt_ne e, (stdAtoms W custom k g').one, inv_one, Matrix.transpose_one, DMat.ofMatrix_one]

/-- More discrete generators that fix what is invariant anyway change nothing. -/
theorem fixed_append {ds : List (Matrix (Fin (W.d g)) (Fin (W.d g)) ℝ)}
    (hf : ∀ h ∈ ds, Fixes W (gensOf W (stdAtoms W custom) lie disc) (Interp.elem W custom g h)) {r : Rep} (hr : r.WF W) {v : List ℝ}
    (hv : v.length = r.size W) : r.Fixed W (gensOf W (stdAtoms W custom) lie disc) v ↔
      r.Fixed W (gensOf W (stdAtoms W custom) lie (Function.update disc g (disc g ++ ds))) v := by
  constructor
  · intro hfix g'
    refine ⟨fun I hI => ?_, (hfix g').2⟩
    obtain ⟨x, hx, rfl⟩ := mem_map.1 hI
    by_cases e : g' = g
    · subst e
      rw [Function.update_self] at hx
      rcases mem_append.1 hx with hx | hx
      · exact (hfix g').1 _ (mem_map_of_mem (f := fun h => Interp.at W (stdAtoms W custom) (oneAt W g' h)) hx)
      · have := hf x hx r hr v hv hfix
        rw [← elem_only hr] at this
        exact this
    · rw [Function.update_of_ne e] at hx
      exact (hfix g').1 _ (mem_map_of_mem (f := fun h => Interp.at W (stdAtoms W custom) (oneAt W g' h)) hx)
  · intro hfix g'
    refine ⟨fun I hI => ?_, (hfix g').2⟩
    obtain ⟨x, hx, rfl⟩ := mem_map.1 hI
    refine (hfix g').1 _ (mem_map_of_mem (f := fun h => Interp.at W (stdAtoms W custom) (oneAt W g' h)) ?_)
    by_cases e : g' = g
    · subst e; rw [Function.update_self]; exact mem_append_left _ hx
    · rw [Function.update_of_ne e]; exact hx

/-- The elements of a curve. -/
theorem curve_fixes (ok : GroupsOK W custom lie disc) (hc : ∀ k, (custom k g).Algebraic) {γ : ℝ → Matrix (Fin (W.d g)) (Fin (W.d g)) ℝ}
    (h1 : ∀ i j, Laurent fun t => γ t i j) (h2 : ∀ i j, Laurent fun t => (γ t)⁻¹ i j) (h3 : ∀ t, 0 < t → Generated (lie g) [] (γ t))
    {t : ℝ} (ht : t ≠ 0) : Fixes W (gensOf W (stdAtoms W custom) lie disc) (Interp.elem W custom g (γ t)) := by
  intro r hr v hv hfix
  refine (Rep.mat_lfam (elem_lfam h1 h2 fun k => (hc k).laurent γ h1 h2) hr).fixed hv (fun s hs => ?_) t ht
  exact elem_fixes ok ((h3 s hs).mono (fun _ h => h) (by simp)) r hr v hv hfix

/-- The whole group meets what the layer lemmas ask. -/
theorem whole_ok (ok : GroupsOK W custom lie disc) (hc : ∀ k, (custom k g).Algebraic) (hS : WholeGroup (W.d g) (lie g) S) :
    ∃ D, GroupsOK W custom lie (Function.update disc g (disc g ++ [D])) ∧
      Fixes W (gensOf W (stdAtoms W custom) lie disc) (Interp.elem W custom g D) ∧
      ∀ h, S h → Generated (lie g) (Function.update disc g (disc g ++ [D]) g) h := by
  obtain ⟨γ, h1, h2, h3, h4, h5, h6⟩ := hS.curve
  have hno : W.orth g = false := by
    rw [← Bool.not_eq_true]
    intro ho
    exact h5 (ok.orthogonal ho ((h3 2 (by norm_num)).mono (fun _ h => h) (by simp)))
  have hnp : W.isPerm g = false := by
    rw [← Bool.not_eq_true]
    intro hp
    have h7 := h3 2 (by norm_num)
    rw [(ok.perm g hp).1] at h7
    have : γ 2 = 1 := by
      have h8 := Generated.form (1 : Matrix (Fin (W.d g)) (Fin (W.d g)) ℝ) (by simp) (lie := []) (disc := []) (by simp) (by simp) h7
      exact absurd (by simpa using h8) h5
    exact h5 (by rw [this]; simp)
  have hunit : ∀ g', ∀ h ∈ Function.update disc g (disc g ++ [γ (-1)]) g', IsUnit h.det := by
    intro g' h hh
    by_cases e : g' = g
    · subst e
      rw [Function.update_self] at hh
      rcases mem_append.1 hh with hh | hh
      · exact ok.unit g' h hh
      · rw [mem_singleton.1 hh]; exact h4
    · rw [Function.update_of_ne e] at hh
      exact ok.unit g' h hh
  refine ⟨γ (-1), ⟨hunit, fun g' ho => ?_, fun k g' => ?_, fun k g' ho => ?_, fun g' hp => ?_⟩,
    curve_fixes ok hc h1 h2 h3 (by norm_num), fun h hh => ?_⟩
  · have e : g' ≠ g := by rintro rfl; rw [hno] at ho; cases ho
    rw [Function.update_of_ne e]
    exact ok.orth g' ho
  · by_cases e : g' = g
    · subst e
      exact ⟨fun x y hx hy => (hc k).mul x y (hx.isUnit (hunit g')) (hy.isUnit (hunit g')), (ok.hom k g').exp⟩
    · rw [Function.update_of_ne e]
      exact ok.hom k g'
  · have e : g' ≠ g := by rintro rfl; rw [hno] at ho; cases ho
    rw [Function.update_of_ne e]
    exact ok.user k g' ho
  · have e : g' ≠ g := by rintro rfl; rw [hnp] at hp; cases hp
    rw [Function.update_of_ne e]
    exact ok.perm g' hp
  · rw [Function.update_self]
    exact (h6 h hh).mono (fun _ h => h) (by simp)

/-- **C117.** Whatever is invariant under the matrices that `GL(n)`, `Scaling(n)`, `SO13p()` or `SO11p()` generates is fixed by all
invertible matrices, all nonzero multiples of the identity, all Lorentz matrices of determinant one, respectively. -/
theorem C117_invariants (ok : GroupsOK W custom lie disc) (hc : ∀ k, (custom k g).Algebraic) (hS : WholeGroup (W.d g) (lie g) S)
    {h : Matrix (Fin (W.d g)) (Fin (W.d g)) ℝ} (hh : S h) {r : Rep} (hr : r.WF W) {v : List ℝ} (hv : v.length = r.size W)
    (hfix : r.Fixed W (gensOf W (stdAtoms W custom) lie disc) v) : (r.mat (Interp.elem W custom g h)).mulVec v = v := by
  obtain ⟨D, ok', hD, hgen⟩ := whole_ok ok hc hS
  have := (fixed_append (ds := [D]) (by simpa using hD) hr hv).1 hfix
  exact elem_fixes ok' (hgen h hh) r hr v hv this

/-- **C117.** So adding discrete generators from the whole group (as `SO13()` does to `SO13p()`) leaves the space of invariant vectors of
every representation as it is. -/
theorem C117_same_invariants (ok : GroupsOK W custom lie disc) (hc : ∀ k, (custom k g).Algebraic) (hS : WholeGroup (W.d g) (lie g) S)
    {ds : List (Matrix (Fin (W.d g)) (Fin (W.d g)) ℝ)} (hds : ∀ h ∈ ds, S h) {r : Rep} (hr : r.WF W) {v : List ℝ} (hv : v.length = r.size W) :
    r.Fixed W (gensOf W (stdAtoms W custom) lie disc) v ↔
      r.Fixed W (gensOf W (stdAtoms W custom) lie (Function.update disc g (disc g ++ ds))) v :=
  fixed_append (fun h hh _ hr _ hv hfix => C117_invariants ok hc hS (hds h hh) hr hv hfix) hr hv

/-- **C117.** In particular `SO13p()` and `SO13()` have the same invariant vectors in every representation, hence the same
equivariant maps. -/
theorem C117_so13 (ok : GroupsOK W custom lie disc) (hc : ∀ k, (custom k g).Algebraic) {a : Arr3 ℝ} (ha : so13pLie = .ok a)
    (h4 : W.d g = 4) (hl : lie g = a.mats (W.d g)) (hd : disc g = []) {r : Rep} (hr : r.WF W) {v : List ℝ} (hv : v.length = r.size W) :
    r.Fixed W (gensOf W (stdAtoms W custom) lie disc) v ↔
      r.Fixed W (gensOf W (stdAtoms W custom) lie (Function.update disc g ((so13Disc : Arr3 ℝ).mats (W.d g)))) v := by
  have key := C117_same_invariants ok hc (S := fun h => hᵀ * minkowski (W.d g) * h = minkowski (W.d g) ∧ h.det = 1)
    (by rw [hl]; exact .so13p h4 ha) (ds := (so13Disc : Arr3 ℝ).mats (W.d g)) (fun h hh => ?_) hr hv
  · rwa [hd, nil_append] at key
  · have : h = -1 := by
      simp only [Arr3.mats, so13Disc, show List.range 1 = [0] from rfl, List.map_cons, List.map_nil, mem_singleton] at hh
      rw [hh]
      ext i j
      by_cases e : i = j
      · simp [e]
      · simp [e, Fin.val_inj]
    rw [this]
    refine ⟨by simp, ?_⟩
    rw [det_neg, Fintype.card_fin, h4]
    norm_num

end

section
variable {W : World} {g : Gid} {N b L fuel : ℕ} {custom : ∀ k g, AtomRep ℝ (W.d g) (W.usize k g)}
  {lie disc : ∀ g, List (Matrix (Fin (W.d g)) (Fin (W.d g)) ℝ)} {S : Matrix (Fin (W.d g)) (Fin (W.d g)) ℝ → Prop}
  {solve : ℕ → LinOp ℝ → Py (DMat ℝ)} {rng : Rng} {σ σ' : NetSt ℝ} {a o : Rep} {mids : List Rep} {E : Emlp ℝ}

/-- **C117.** A linear layer built for one of these groups commutes with every matrix of the whole group. -/
theorem C117_linear (hW : W.SingleOK g N) (ok : GroupsOK W custom lie disc) (hc : ∀ k, (custom k g).Algebraic) (hS : WholeGroup (W.d g) (lie g) S)
    (hsol : SolverOK W (gensOf W (stdAtoms W custom) lie disc) solve) (hσ : NetReach W g (gensOf W (stdAtoms W custom) lie disc) solve σ)
    (ha : a.Over W g N) (ho : o.Over W g N) (hN : o.size W * a.size W ≤ N) {Ly : LinearL ℝ}
    (hL : LinearL.init W (gensOf W (stdAtoms W custom) lie disc) solve a o σ = .ok (Ly, σ'))
    {w : DMat ℝ} {β : List ℝ} (h1 : w.rows = o.size W) (h2 : w.cols = a.size W) (h3 : β.length = o.size W)
    {h : Matrix (Fin (W.d g)) (Fin (W.d g)) ℝ} (hh : S h) :
    Commutes (a.size W) (o.size W) (Ly.apply w β) (a.mat (Interp.elem W custom g h)) (o.mat (Interp.elem W custom g h)) := by
  obtain ⟨D, ok', hD, hgen⟩ := whole_ok ok hc hS
  have := (LinearL.init_meets hW gensOf_sized hsol ha ho hN σ (hσ.ok hsol) Ly σ' hL).2
  exact this.commutes ho.wf (elem_dual ok' (hgen h hh)) ha.wf (fun r hr v hv hfix => C117_invariants ok hc hS hh hr hv hfix) h1 h2 h3

/-- **C117.** So does every network, whatever its parameters. -/
theorem C117_network (hW : W.SingleOK g N) (ok : GroupsOK W custom lie disc) (hcu : ∀ k, (custom k g).Algebraic) (hS : WholeGroup (W.d g) (lie g) S)
    (hsol : SolverOK W (gensOf W (stdAtoms W custom) lie disc) solve) (hσ : NetReach W g (gensOf W (stdAtoms W custom) lie disc) solve σ)
    (hrng : RngOK rng) (hov : ∀ r ∈ a :: o :: mids, r.Over W g N ∧ r.size W + r.gates W ≤ b) (hN : b * b ≤ N)
    (hE : Emlp.build W (gensOf W (stdAtoms W custom) lie disc) solve rng a mids o σ = .ok (E, σ'))
    {ps : List (BlockParams ℝ)} {w : DMat ℝ} {β : List ℝ} (hp : E.Shaped ps w β) (c : ℝ) (act : ℝ → ℝ)
    {h : Matrix (Fin (W.d g)) (Fin (W.d g)) ℝ} (hh : S h) {x y : List ℝ} (hx : x.length = a.size W)
    (hy : E.apply W c act ps w β x = .ok y) : y.length = o.size W ∧
      E.apply W c act ps w β ((a.mat (Interp.elem W custom g h)).mulVec x) = .ok ((o.mat (Interp.elem W custom g h)).mulVec y) := by
  obtain ⟨D, ok', hD, hgen⟩ := whole_ok ok hcu hS
  have good := (Emlp.build_meets hW gensOf_sized hsol hrng hov hN σ (hσ.ok hsol) E σ' hE).2
  by_cases hc : ∀ r ∈ mids, r.CanonicalSum W
  · obtain ⟨z, h1, h2, h3⟩ := good.commutes hW (hov a (by simp)).1 (hov o (by simp)).1
      (fun r hr => ⟨(hov r (by simp [hr])).1, hc r hr⟩) c act (elem_dual ok' (hgen h hh))
      (fun r hr v hv hfix => C117_invariants ok hcu hS hh hr hv hfix) (elem_perm ok' (hgen h hh)) hp x hx
    rw [h1] at hy
    have := Except.ok.inj hy
    subst this
    exact ⟨h2, h3⟩
  · push Not at hc
    obtain ⟨e, he⟩ := good.raises (fun r hr => (hov r (by simp [hr])).1) hc c act hp.blocks.length_eq.symm x (w := w) (β := β)
    rw [he] at hy
    cases hy

end
/-! Cases: group `1` of the example environment (two-dimensional, not flagged orthogonal) as `GL(2)`, `Scaling(2)` or `SO11p()`. -/

theorem trivialAtom_algebraic (n m : ℕ) : (trivialAtom n m).Algebraic :=
  ⟨fun _ _ _ _ => by simp [trivialAtom], fun _ _ _ => ⟨fun _ _ => Laurent.const _, fun i j => Laurent.const ((1 : Matrix (Fin m) (Fin m) ℝ)⁻¹ i j)⟩⟩

/-- these Lie algebra generators at group `1`, none at the others -/
def liesAtOne (l : List (Matrix (Fin (exW.d 1)) (Fin (exW.d 1)) ℝ)) : ∀ g, List (Matrix (Fin (exW.d g)) (Fin (exW.d g)) ℝ) := Function.update (fun _ => []) 1 l

theorem liesAtOne_ok {l : List (Matrix (Fin (exW.d 1)) (Fin (exW.d 1)) ℝ)} {custom : ∀ k g, AtomRep ℝ (exW.d g) (exW.usize k g)}
    (h1 : ∀ k g, (custom k g).Hom (liesAtOne l g) []) (h2 : ∀ k g, g ≠ 1 → ∀ M, Generated [] [] M → ((custom k g).rho M)ᵀ * (custom k g).rho M = 1) :
    GroupsOK exW custom (liesAtOne l) fun _ => [] where
  unit g h hh := by simp at hh
  orth g ho := by
    have hg : g ≠ 1 := by simpa [exW] using ho
    exact ⟨fun A hA => by rw [liesAtOne, Function.update_of_ne hg] at hA; simp at hA, by simp⟩
  hom := h1
  user k g ho M hM := by
    have hg : g ≠ 1 := by simpa [exW] using ho
    rw [liesAtOne, Function.update_of_ne hg] at hM
    exact h2 k g hg M hM
  perm g hg := by
    have : g = 2 := by simpa [exW] using hg
    subst this
    exact ⟨by rw [liesAtOne, Function.update_of_ne (by decide)], by simp⟩

example : (∃ a : Arr3 ℝ, glLie 2 = .ok a ∧ WholeGroup 2 (a.mats 2) fun h => IsUnit h.det) ∧
    (∃ a : Arr3 ℝ, so13pLie = .ok a ∧ WholeGroup 4 (a.mats 4) fun h => hᵀ * minkowski 4 * h = minkowski 4 ∧ h.det = 1) ∧
    (∀ l S, WholeGroup (exW.d 1) l S → GroupsOK exW (fun k g => trivialAtom _ _) (liesAtOne l) (fun _ => []) ∧ WholeGroup (exW.d 1) (liesAtOne l 1) S) ∧
    (fun h : Matrix (Fin 2) (Fin 2) ℝ => IsUnit h.det) !![-1, 0; 0, 1] ∧ ¬ (0 : ℝ) < (!![-1, 0; 0, 1] : Matrix (Fin 2) (Fin 2) ℝ).det := by
  obtain ⟨a, ha, -⟩ := C115_gl 2
  obtain ⟨a', ha', -⟩ := C115_so13p
  refine ⟨⟨a, ha, .gl (by decide) ha⟩, ⟨a', ha', .so13p rfl ha'⟩, fun l S h => ⟨liesAtOne_ok (fun _ _ => trivialAtom_hom _ _) fun _ _ _ _ _ => by simp [trivialAtom], ?_⟩, ?_, ?_⟩
  · rw [liesAtOne, Function.update_self]; exact h
  · simp [det_fin_two]
  · simp [det_fin_two]

/-- A layer `V → V` for such a group. -/
example (l : List (Matrix (Fin (exW.d 1)) (Fin (exW.d 1)) ℝ)) : ∃ (solve : ℕ → LinOp ℝ → Py (DMat ℝ)) (Ly : LinearL ℝ) (σ' : NetSt ℝ),
    SolverOK exW (gensOf exW (stdAtoms exW fun k g => trivialAtom _ _) (liesAtOne l) fun _ => []) solve ∧
    LinearL.init exW (gensOf exW (stdAtoms exW fun k g => trivialAtom _ _) (liesAtOne l) fun _ => []) solve
      (.key (.fac (.atom (.vec 0 (some 1))))) (.key (.fac (.atom (.vec 0 (some 1))))) ⟨freshSt, none, 0⟩ = .ok (Ly, σ') := by
  obtain ⟨s, h1, h2⟩ := exists_solver ℝ
  have hov : (Rep.key (.fac (.atom (.vec 0 (some 1))))).Over exW 1 81 :=
    ⟨rfl, by intro k hk; rw [show k = .fac (.atom (.vec 0 (some 1))) by simpa [Rep.keys, Key.base, Fac.base] using hk]; exact ⟨by decide, .inr ⟨rfl, .inl rfl⟩, by decide⟩⟩
  obtain ⟨Ly, σ', h⟩ := (C30_linear (exW_single 1 81 (by decide))
    (liesAtOne_ok (l := l) (custom := fun k g => trivialAtom _ _) (fun _ _ => trivialAtom_hom _ _) fun _ _ _ _ _ => by simp [trivialAtom])
    (h1 _ _) (.start none 0 fun h e => by simp at e) hov hov (by decide)).2 fun _ _ C _ => h2 C
  exact ⟨_, Ly, σ', h1 _ _, h⟩

/-! Representations that are not Laurent polynomials in the matrix need not have the further symmetry. -/

open Classical in
/-- the sign of the determinant, as a user-defined representation -/
noncomputable def signAtom (n m : ℕ) : AtomRep ℝ n m := ⟨fun h => if h.det < 0 then -1 else 1, 0, by simp⟩

theorem signAtom_hom {n m : ℕ} {l : List (Matrix (Fin n) (Fin n) ℝ)} : (signAtom n m).Hom l [] := by
  have pos : ∀ h : Matrix (Fin n) (Fin n) ℝ, Generated l [] h → 0 < h.det := by
    intro h hg
    induction hg with
    | one => simp
    | exp hA => exact det_exp_pos _
    | gen h => simp at h
    | inv h => simp at h
    | mul _ _ i1 i2 => rw [det_mul]; exact mul_pos i1 i2
  refine ⟨fun x y hx hy => ?_, fun A hA => ?_⟩
  · have h1 := pos x hx
    have h2 := pos y hy
    have h3 := mul_pos h1 h2
    simp [signAtom, h1.not_gt, h2.not_gt, h3.not_gt]
  · have := det_exp_pos A
    simp [signAtom, this.not_gt]

/-- **C117.** The sign of the determinant is multiplicative on all invertible matrices, but a vector of that representation which is
invariant under what `GL(2)` generates is not fixed by the reflection. -/
theorem C117_counterexample_sign : ∃ (a : Arr3 ℝ) (r : Rep) (v : List ℝ) (h : Matrix (Fin (exW.d 1)) (Fin (exW.d 1)) ℝ),
    glLie (exW.d 1) = .ok a ∧ GroupsOK exW (fun k g => if g = 1 then signAtom _ _ else trivialAtom _ _) (liesAtOne (a.mats _)) (fun _ => []) ∧
    (∀ (m : ℕ) (x y : Matrix (Fin 2) (Fin 2) ℝ), IsUnit x.det → IsUnit y.det →
      (signAtom 2 m).rho (x * y) = (signAtom 2 m).rho x * (signAtom 2 m).rho y) ∧
    r.WF exW ∧ v.length = r.size exW ∧ IsUnit h.det ∧
    r.Fixed exW (gensOf exW (stdAtoms exW fun k g => if g = 1 then signAtom _ _ else trivialAtom _ _) (liesAtOne (a.mats _)) fun _ => []) v ∧
    (r.mat (Interp.elem exW (fun k g => if g = 1 then signAtom _ _ else trivialAtom _ _) 1 h)).mulVec v ≠ v := by
  obtain ⟨a, ha, -⟩ := C115_gl (exW.d 1)
  obtain ⟨D, hD⟩ : ∃ D : Matrix (Fin (exW.d 1)) (Fin (exW.d 1)) ℝ, D.det < 0 :=
    ⟨(!![-1, 0; 0, 1] : Matrix (Fin 2) (Fin 2) ℝ), by
      show (!![-1, 0; 0, 1] : Matrix (Fin 2) (Fin 2) ℝ).det < 0
      simp [det_fin_two]⟩
  refine ⟨a, .key (.fac (.atom (.vec 1 (some 1)))), [1, 0, 0, 0], D, ha,
    liesAtOne_ok (fun k g => ?_) fun k g hg M _ => ?_, fun m x y hx hy => ?_, rfl, by decide, ?_, ?_, ?_⟩
  · split_ifs
    · exact signAtom_hom
    · exact trivialAtom_hom _ _
  · simp [hg, trivialAtom]
  · have h1 := hx.ne_zero
    have h2 := hy.ne_zero
    simp only [signAtom, det_mul]
    rcases lt_or_gt_of_ne h1 with h1 | h1 <;> rcases lt_or_gt_of_ne h2 with h2 | h2
    · simp [h1, h2, (mul_pos_of_neg_of_neg h1 h2).not_gt]
    · simp [h1, h2.not_gt, mul_neg_of_neg_of_pos h1 h2]
    · simp [h1.not_gt, h2, mul_neg_of_pos_of_neg h1 h2]
    · simp [h1.not_gt, h2.not_gt, (mul_pos h1 h2).not_gt]
  · exact isUnit_iff_ne_zero.2 hD.ne
  · intro g
    refine ⟨fun I hI => by simp [gensOf] at hI, fun I hI => ?_⟩
    obtain ⟨A, hA, rfl⟩ := mem_map.1 hI
    have hg : g = 1 := by
      by_contra hg
      rw [liesAtOne, Function.update_of_ne hg] at hA
      simp at hA
    subst hg
    show (DMat.ofMatrix (0 : Matrix (Fin (exW.asize 1 1)) (Fin (exW.asize 1 1)) ℝ)).mulVec [1, 0, 0, 0] = _
    rw [DMat.ofMatrix_zero]
    refine DMat.vec_ext (by simp [DMat.mulVec]; rfl) fun i hi => ?_
    rw [DMat.getD_mulVec (by simpa [DMat.mulVec] using hi)]
    have hi' : i < exW.asize 1 1 := by simpa [DMat.mulVec] using hi
    replace hi' : i < 4 := hi'
    simp only [DMat.zero_e, zero_mul, Finset.sum_const_zero]
    interval_cases i <;> rfl
  · show (DMat.ofMatrix ((signAtom (exW.d 1) (exW.asize 1 1)).rho (oneAt exW 1 _ 1))).mulVec [1, 0, 0, 0] ≠ _
    rw [oneAt_same]
    have e : (signAtom (exW.d 1) (exW.asize 1 1)).rho D = -1 := by
      show (if D.det < 0 then (-1 : Matrix (Fin (exW.asize 1 1)) (Fin (exW.asize 1 1)) ℝ) else 1) = _
      rw [if_pos hD]
    rw [e]
    intro h
    have h0 := congrArg (fun w : List ℝ => w.getD 0 0) h
    beta_reduce at h0
    rw [DMat.getD_mulVec (show 0 < 4 by decide)] at h0
    have hs : ∀ j ∈ Finset.range 4, (DMat.ofMatrix (-1 : Matrix (Fin (exW.asize 1 1)) (Fin (exW.asize 1 1)) ℝ)).e 0 j * ([1, 0, 0, 0] : List ℝ).getD j 0 =
        if j = 0 then -1 else 0 := by
      intro j hj
      have hj' := Finset.mem_range.1 hj
      interval_cases j
      · rw [DMat.ofMatrix_e _ (show 0 < exW.asize 1 1 by decide) (show 0 < exW.asize 1 1 by decide)]
        simp
      all_goals simp
    rw [show (DMat.ofMatrix (-1 : Matrix (Fin (exW.asize 1 1)) (Fin (exW.asize 1 1)) ℝ)).cols = 4 from rfl, Finset.sum_congr rfl hs] at h0
    norm_num at h0

end Verif
