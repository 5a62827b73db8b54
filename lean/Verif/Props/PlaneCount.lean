import Verif.Props.HaarExists
import Verif.Props.DocReps
import Verif.Props.Ranks
import Mathlib.Analysis.SpecialFunctions.Integrals.Basic
import Mathlib.Data.Nat.Choose.Central

/-! C139: the number of equivariant linear maps between tensors of the plane. -/
namespace Verif
open List MeasureTheory ProbabilityTheory

/-- The mean of the powers of `2 cos θ` over a full turn. -/
theorem mean_two_cos (k : ℕ) : ∫ t in (0 : ℝ)..1, (2 * Real.cos (2 * Real.pi * t)) ^ k = if Even k then (k.choose (k / 2) : ℝ) else 0 := by
  have hpi := Real.pi_pos
  have sub : ∀ k : ℕ, ∫ t in (0 : ℝ)..1, (2 * Real.cos (2 * Real.pi * t)) ^ k = 2 ^ k * ((2 * Real.pi)⁻¹ * ∫ x in (0 : ℝ)..(2 * Real.pi), Real.cos x ^ k) := fun k => by
    have h := intervalIntegral.integral_comp_mul_left (a := 0) (b := 1) (fun x => Real.cos x ^ k) (c := 2 * Real.pi) (by positivity)
    rw [mul_zero, mul_one, smul_eq_mul] at h
    rw [← h, ← intervalIntegral.integral_const_mul]
    exact intervalIntegral.integral_congr fun t _ => by simp only [mul_pow]
  have step : ∀ k : ℕ, ∫ x in (0 : ℝ)..(2 * Real.pi), Real.cos x ^ (k + 2) = (k + 1) / (k + 2) * ∫ x in (0 : ℝ)..(2 * Real.pi), Real.cos x ^ k := fun k => by
    rw [integral_cos_pow, Real.sin_two_pi, Real.sin_zero]
    simp
  rw [sub]
  rcases Nat.even_or_odd' k with ⟨m, rfl | rfl⟩
  · rw [if_pos (even_two_mul m), Nat.mul_div_cancel_left m two_pos, ← Nat.centralBinom_eq_two_mul_choose]
    induction m with
    | zero => simp; field_simp
    | succ m ih =>
      have hb : ((m : ℝ) + 1) * (m + 1).centralBinom = 2 * (2 * m + 1) * m.centralBinom := by exact_mod_cast Nat.succ_mul_centralBinom_succ m
      have hm : ((m : ℝ) + 1) ≠ 0 := by positivity
      rw [show 2 * (m + 1) = 2 * m + 2 by ring, step, pow_add]
      rw [← ih] at hb
      refine mul_left_cancel₀ hm (Eq.trans ?_ hb.symm)
      push_cast
      field_simp
  · rw [if_neg (by simp)]
    induction m with
    | zero => simp
    | succ m ih =>
      rw [show 2 * (m + 1) + 1 = 2 * m + 1 + 2 by ring, step]
      have : (2 * Real.pi)⁻¹ ≠ 0 := by positivity
      have h2 : (2 : ℝ) ^ (2 * m + 1) ≠ 0 := by positivity
      have h0 := (mul_eq_zero.1 ((mul_eq_zero.1 ih).resolve_left h2)).resolve_left this
      rw [h0]
      simp

/-- A uniform angle gives a uniform rotation of the plane, of trace `2 cos θ`. -/
theorem uniform_plane {n : ℕ} (hn : n = 2) {t : Arr3 ℝ} (ht : soLie n = .ok t) : ∃ X : UnitAddCircle → Matrix (Fin n) (Fin n) ℝ,
    UniformLaw (AddCircle.haarAddCircle : Measure UnitAddCircle) (t.mats n) [] X ∧
    ∀ s : ℝ, (X (s : UnitAddCircle)).trace = 2 * Real.cos (2 * Real.pi * s) ∧ (X (s : UnitAddCircle))⁻¹.trace = 2 * Real.cos (2 * Real.pi * s) := by
  subst hn
  rw [mats_so2 ht]
  have hA : so2Gen * so2Gen * so2Gen = -so2Gen := by
    ext i j
    fin_cases i <;> fin_cases j <;> simp [so2Gen, Matrix.mul_apply]
  obtain ⟨X, hX, hU⟩ := uniform_circle hA
  have htr : ∀ s : ℝ, (NormedSpace.exp (s • so2Gen)).trace = 2 * Real.cos s := fun s => by
    rw [exp_rotation hA]
    simp [so2Gen, Matrix.trace, Matrix.mul_apply]
    ring
  refine ⟨X, hU, fun s => ?_⟩
  rw [hX]
  refine ⟨htr _, ?_⟩
  rw [← Matrix.exp_neg, ← neg_smul, htr, Real.cos_neg]

section
variable {W : World} {g : Gid} {N : ℕ} {custom : ∀ k g, AtomRep ℝ (W.d g) (W.usize k g)}
  {lie disc : ∀ g, List (Matrix (Fin (W.d g)) (Fin (W.d g)) ℝ)} {solve : ℕ → LinOp ℝ → Py (DMat ℝ)}

/-- **C139, the plane.** For `SO(2)` the number of independent equivariant linear maps from tensors of order `p` to tensors of order `q` is the middle binomial coefficient of
`p+q`, or zero if `p+q` is odd. -/
theorem C139_plane (hW : W.SingleOK g N) (p q : ℕ) (he : (Expr.rshift (.pow (.rep 0) p) (.pow (.rep 0) q)).OK W g)
    (hN : (Expr.rshift (.pow (.rep 0) p) (.pow (.rep 0) q)).bound W g ≤ N)
    (ok : GroupsOK W custom lie disc) (ho : W.orth g = true)
    (hc : ∀ k i j, Measurable fun t : Fin (W.d g) → Fin (W.d g) → ℝ => (custom k g).rho (Matrix.of t) i j)
    (hd : W.d g = 2) {t : Arr3 ℝ} (ht : soLie (W.d g) = .ok t) (hl : lie g = t.mats (W.d g)) (hdisc : disc g = [])
    (hsol : SolverOK W (gensOf W (stdAtoms W custom) lie disc) solve)
    (htot : SolverRuns W (gensOf W (stdAtoms W custom) lie disc) solve) (calls : List SolveCall) :
    ∃ r L, (Expr.rshift (.pow (.rep 0) p) (.pow (.rep 0) q)).eval W g = .ok r ∧
      (r.equivariantBasis W (gensOf W (stdAtoms W custom) lie disc) solve (session W (gensOf W (stdAtoms W custom) lie disc) solve calls freshSt)).1 = .ok L ∧
      L.sem.cols = if Even (p + q) then (p + q).choose ((p + q) / 2) else 0 := by
  obtain ⟨X, hX, htr⟩ := uniform_plane hd ht
  rw [← hl, ← hdisc] at hX
  obtain ⟨r, L, e1, e2, e3⟩ := C139_characters hW _ he hN ok ho hc hX hsol htot calls
  refine ⟨r, L, e1, e2, ?_⟩
  have h : (L.sem.cols : ℝ) = if Even (p + q) then ((p + q).choose ((p + q) / 2) : ℝ) else 0 := by
    rw [e3, AddCircle.integral_haarAddCircle, inv_one, one_smul, ← UnitAddCircle.intervalIntegral_preimage 0, zero_add, ← mean_two_cos]
    refine intervalIntegral.integral_congr fun s _ => ?_
    show (X (s : UnitAddCircle)).trace ^ q * (X (s : UnitAddCircle))⁻¹.trace ^ p = _
    rw [(htr s).1, (htr s).2, ← pow_add, add_comm]
  split_ifs at h ⊢ <;> exact_mod_cast h

end

/-- The hypotheses are met: for `SO(2)` there are two equivariant maps from vectors to vectors. -/
example : ∃ (t u : Arr3 ℝ) (lie : ∀ g, List (Matrix (Fin (exW.d g)) (Fin (exW.d g)) ℝ)) (solve : ℕ → LinOp ℝ → Py (DMat ℝ)) (r : Rep) (B : LinOp ℝ),
    RotationsIn exW 3 (fun k g => trivialAtom _ _) (fun k => if k = 0 then 1 else 0) lie (fun _ => []) t u ∧
    (Expr.rshift (.pow (.rep 0) 1) (.pow (.rep 0) 1)).eval exW 3 = .ok r ∧
    (r.equivariantBasis exW (gensOf exW (stdAtoms exW fun k g => trivialAtom _ _) lie fun _ => []) solve
      (session exW (gensOf exW (stdAtoms exW fun k g => trivialAtom _ _) lie fun _ => []) solve [] freshSt)).1 = .ok B ∧ B.sem.cols = 2 := by
  obtain ⟨t, u, H⟩ := exRotations (g := 3) (by decide) (by decide)
  obtain ⟨s, s1, s2⟩ := exists_solver ℝ
  obtain ⟨r, B, e1, e2, e3⟩ := C139_plane (W := exW) (g := 3) (custom := fun k g => trivialAtom _ _) (disc := fun _ => []) (solve := fun _ => s) (exW_single 3 81 (by decide)) 1 1
    (by simp [Expr.OK, World.asize, exW]) (by decide) H.ok' (by decide) (fun _ _ _ => measurable_const) rfl H.so (matsAt_self _ _) rfl (s1 _ _) (fun _ _ C _ => s2 C) []
  exact ⟨t, u, _, _, r, B, H, e1, e2, e3⟩

end Verif
