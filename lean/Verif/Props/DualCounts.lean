import Verif.Props.Counting
import Verif.Props.SmoothDynamics

/-! C132: for a group that is not orthogonal, a representation and its dual may have different numbers of basis elements. -/
namespace Verif
open List

/-- `[[1,1],[0,1]]` -/
def affShear (n : ℕ) : Matrix (Fin n) (Fin n) ℝ := Matrix.of fun i j => if i = j then 1 else if i.val = 0 ∧ j.val = 1 then 1 else 0

/-- `[[1,0],[0,2]]` -/
def affStretch (n : ℕ) : Matrix (Fin n) (Fin n) ℝ := Matrix.diagonal fun i => if i.val = 1 then 2 else 1

/-- the group 1 of the example world is generated by the two -/
def affDisc (g : Gid) : List (Matrix (Fin (exW.d g)) (Fin (exW.d g)) ℝ) := if g = 1 then [affShear _, affStretch _] else []

theorem aff_det : ∀ h ∈ [affShear 2, affStretch 2], IsUnit h.det := by
  intro h hh
  simp only [mem_cons, not_mem_nil, or_false] at hh
  rcases hh with rfl | rfl
  · simp [affShear, Matrix.det_fin_two]
  · simp [affStretch, Matrix.det_diagonal, Fin.prod_univ_two]

theorem aff_groups : GroupsOK exW (fun k g => trivialAtom _ _) (fun _ => []) affDisc where
  unit g h hh := by
    by_cases e : g = 1
    · subst e; exact aff_det h hh
    · simp [affDisc, e] at hh
  orth g hg := by
    have : g ≠ 1 := by simpa [exW] using hg
    exact ⟨by simp, by simp [affDisc, this]⟩
  hom _ _ := trivialAtom_hom _ _
  user k g _ M _ := by simp [trivialAtom]
  perm g hg := by
    have : g = 2 := by simpa [exW] using hg
    subst this
    exact ⟨rfl, by simp [affDisc]⟩

theorem aff_fix {h : Matrix (Fin 2) (Fin 2) ℝ} (hh : Generated [] [affShear 2, affStretch 2] h) : h.mulVec ![1, 0] = ![1, 0] := by
  have key : ∀ h ∈ [affShear 2, affStretch 2], h.mulVec ![1, 0] = ![1, 0] := by
    intro h hh
    simp only [mem_cons, not_mem_nil, or_false] at hh
    rcases hh with rfl | rfl <;> ext i <;> fin_cases i <;> simp [affShear, affStretch, Matrix.mulVec, dotProduct, Fin.sum_univ_two]
  induction hh with
  | one => exact Matrix.one_mulVec _
  | exp hA =>
    have : ({B | B ∈ ([] : List (Matrix (Fin 2) (Fin 2) ℝ))} : Set _) = ∅ := by ext; simp
    rw [this, Submodule.span_empty, Submodule.mem_bot] at hA
    rw [hA, NormedSpace.exp_zero, Matrix.one_mulVec]
  | gen hh => exact key _ hh
  | @inv k hh =>
    have hu : IsUnit k.det := aff_det k hh
    calc k⁻¹.mulVec ![1, 0] = k⁻¹.mulVec (k.mulVec ![1, 0]) := by rw [key _ hh]
      _ = ![1, 0] := by rw [Matrix.mulVec_mulVec, Matrix.nonsing_inv_mul _ hu, Matrix.one_mulVec]
  | mul _ _ h1 h2 => rw [← Matrix.mulVec_mulVec, h2, h1]

theorem aff_dual {v : Fin 2 → ℝ} (h : ∀ k ∈ [affShear 2, affStretch 2], (k⁻¹).transpose.mulVec v = v) : v = 0 := by
  have key : ∀ k ∈ [affShear 2, affStretch 2], k.transpose.mulVec v = v := fun k hk => by
    have hu : IsUnit k.det := aff_det k hk
    calc k.transpose.mulVec v = k.transpose.mulVec ((k⁻¹).transpose.mulVec v) := by rw [h k hk]
      _ = v := by rw [Matrix.mulVec_mulVec, ← Matrix.transpose_mul, Matrix.nonsing_inv_mul _ hu, Matrix.transpose_one, Matrix.one_mulVec]
  have h1 := congrFun (key (affShear 2) (by simp)) 1
  have h2 := congrFun (key (affStretch 2) (by simp)) 1
  simp [affShear, Matrix.mulVec, dotProduct, Fin.sum_univ_two] at h1
  simp [affStretch, Matrix.mulVec, dotProduct, Fin.sum_univ_two] at h2
  ext i
  fin_cases i
  · exact h1
  · show v 1 = 0
    linarith

/-- **C132**, the limit of `C132_transpose`: for the group generated by `[[1,1],[0,1]]` and `[[1,0],[0,2]]`, `V` has a basis element and `V.T` has none. -/
theorem C132_counterexample_dual {solve : ℕ → LinOp ℝ → Py (DMat ℝ)}
    (hsol : SolverOK exW (gensOf exW (stdAtoms exW fun k g => trivialAtom _ _) (fun _ => []) affDisc) solve)
    (htot : SolverRuns exW (gensOf exW (stdAtoms exW fun k g => trivialAtom _ _) (fun _ => []) affDisc) solve) :
    ∃ m, 0 < m ∧ Columns exW 1 (gensOf exW (stdAtoms exW fun k g => trivialAtom _ _) (fun _ => []) affDisc) solve (.rep 0) m ∧
      Columns exW 1 (gensOf exW (stdAtoms exW fun k g => trivialAtom _ _) (fun _ => []) affDisc) solve (.dual (.rep 0)) 0 := by
  have hW := exW_single 1 81 (by decide)
  have hv : (Expr.rep 0).OK exW 1 := ⟨by decide, .inl rfl⟩
  obtain ⟨S, hS, h1⟩ := C132_dimension hW aff_groups hsol htot hv (by decide)
  obtain ⟨S', hS', h2⟩ := C132_dimension hW aff_groups hsol htot (e := .dual (.rep 0)) hv (by decide)
  have e0 : ∀ h : Matrix (Fin 2) (Fin 2) ℝ, ((Expr.rep 0).den 1 (Interp.elem exW (fun k g => trivialAtom _ _) 1 h)).1 = DMat.ofMatrix h := fun h => by
    exact congrArg (fun M : Matrix (Fin 2) (Fin 2) ℝ => DMat.ofMatrix M) (oneAt_same (W := exW) 1 h)
  have e1 : ∀ h : Matrix (Fin 2) (Fin 2) ℝ, ((Expr.dual (.rep 0)).den 1 (Interp.elem exW (fun k g => trivialAtom _ _) 1 h)).1 = DMat.ofMatrix (h⁻¹).transpose := fun h => by
    exact congrArg (fun M : Matrix (Fin 2) (Fin 2) ℝ => DMat.ofMatrix M⁻¹.transpose) (oneAt_same (W := exW) 1 h)
  refine ⟨_, ?_, h1, ?_⟩
  · have hmem : (![1, 0] : Fin 2 → ℝ) ∈ S := (hS _).2 fun h hh => by
      exact (congrArg (fun M : DMat ℝ => M.mulVec (ofFn (![1, 0] : Fin 2 → ℝ))) (e0 h)).trans
        ((ofMatrix_mulVec_ofFn (n := 2) h ![1, 0]).trans (congrArg (ofFn (n := 2)) (aff_fix hh)))
    have hne : S ≠ ⊥ := fun e => by
      rw [e] at hmem
      have h3 : (![1, 0] : Fin 2 → ℝ) = 0 := (Submodule.mem_bot ℝ).1 hmem
      have := congrFun h3 0
      simp at this
    haveI := Submodule.nontrivial_iff_ne_bot.2 hne
    exact Module.finrank_pos
  · have hbot : S' = ⊥ := by
      rw [Submodule.eq_bot_iff]
      intro v hv
      refine aff_dual (v := v) fun k hk => ?_
      exact ofFn_injective ((ofMatrix_mulVec_ofFn (n := 2) (k⁻¹).transpose v).symm.trans
        ((congrArg (fun M : DMat ℝ => M.mulVec (ofFn (n := 2) v)) (e1 k).symm).trans ((hS' v).1 hv k (.gen hk))))
    rw [hbot, finrank_bot] at h2
    exact h2

/-- a solver as assumed exists -/
example : ∃ solve : ℕ → LinOp ℝ → Py (DMat ℝ), SolverOK exW (gensOf exW (stdAtoms exW fun k g => trivialAtom _ _) (fun _ => []) affDisc) solve ∧
    SolverRuns exW (gensOf exW (stdAtoms exW fun k g => trivialAtom _ _) (fun _ => []) affDisc) solve := by
  obtain ⟨s, h1, h2⟩ := exists_solver ℝ
  exact ⟨_, h1 _ _, fun _ _ C _ => h2 C⟩

end Verif
