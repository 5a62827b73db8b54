import Verif.Model.Sparsify
import Verif.Lemmas.NullSpace
import Verif.Lemmas.DenseInv
import Mathlib.Tactic.NormNum
import Mathlib.Tactic.IntervalCases

/-!
# C97: `sparsify_basis`
-/
namespace Verif
open List

theorem sparsifyEntry_cases (x : ℝ) :
    (|x| < 1e-2 ∧ sparsifyEntry x = 0) ∨ (x > 1e-2 ∧ sparsifyEntry x = 1) ∨ (x < -1e-2 ∧ sparsifyEntry x = -1) ∨ (|x| = 1e-2 ∧ sparsifyEntry x = x) := by
  unfold sparsifyEntry
  dsimp only
  rcases lt_trichotomy |x| 1e-2 with h | h | h
  · left
    rw [if_pos h, if_neg (by norm_num)]
    exact ⟨h, rfl⟩
  · right; right; right
    rw [if_neg h.not_lt, if_neg h.not_gt]
    exact ⟨h, rfl⟩
  · right
    rw [if_neg (not_lt.2 h.le), if_pos h]
    rcases le_or_gt 0 x with h0 | h0
    · rw [abs_of_nonneg h0] at h ⊢
      exact .inl ⟨h, div_self (by intro hx; rw [hx] at h; norm_num at h)⟩
    · rw [abs_of_neg h0] at h ⊢
      exact .inr (.inl ⟨by linarith, by rw [div_neg, div_self h0.ne]⟩)

/-- A loss above the bound after step 100. -/
def SparsifyDiverges (loss : ℕ → Fl) : Prop := ∃ i l, 100 < i ∧ i < 3000 ∧ loss i = some l ∧ l > 1e2

theorem sparsifyLoop_iff (loss : ℕ → Fl) (k i : ℕ) :
    sparsifyLoop loss k i = false ↔ ∃ m l, i ≤ m ∧ m < i + k ∧ 100 < m ∧ loss m = some l ∧ l > 1e2 := by
  induction k generalizing i with
  | zero =>
    rw [sparsifyLoop]
    constructor
    · intro h; cases h
    · rintro ⟨m, l, h1, h2, -⟩; omega
  | succ k ih =>
    have hstep : ∀ (hno : ∀ l, loss i = some l → ¬ (l > 1e2 ∧ i > 100)),
        (∃ m l, i + 1 ≤ m ∧ m < i + 1 + k ∧ 100 < m ∧ loss m = some l ∧ l > 1e2) ↔ ∃ m l, i ≤ m ∧ m < i + (k + 1) ∧ 100 < m ∧ loss m = some l ∧ l > 1e2 := by
      intro hno
      constructor
      · rintro ⟨m, l, h1, h2, h3⟩
        exact ⟨m, l, by omega, by omega, h3⟩
      · rintro ⟨m, l, h1, h2, h3, h4, h5⟩
        rcases Nat.eq_or_lt_of_le h1 with rfl | h1
        · exact absurd ⟨h5, h3⟩ (hno l h4)
        · exact ⟨m, l, h1, by omega, h3, h4, h5⟩
    rw [sparsifyLoop]
    cases hl : loss i with
    | none =>
      simp only
      rw [ih, hstep (fun l h => by rw [hl] at h; cases h)]
    | some l =>
      simp only
      split_ifs with hc
      · exact ⟨fun _ => ⟨i, l, le_refl _, by omega, hc.2, hl, hc.1⟩, fun _ => rfl⟩
      · rw [ih, hstep (fun l' h => by rw [hl] at h; injection h with h; rw [← h]; exact hc)]

theorem sparsifyLoop_diverges (loss : ℕ → Fl) : sparsifyLoop loss 3000 0 = false ↔ SparsifyDiverges loss := by
  rw [sparsifyLoop_iff]
  constructor
  · rintro ⟨m, l, -, h2, h3, h4⟩; exact ⟨m, l, h3, by omega, h4⟩
  · rintro ⟨m, l, h3, h2, h4⟩; exact ⟨m, l, by omega, by omega, h3, h4⟩

theorem sparsifyBasis_ok {loss : ℕ → ℕ → Fl} {W : ℕ → DMat ℝ} {Q X : DMat ℝ} {depth a : ℕ} (h : sparsifyBasis loss W Q depth a = .ok X) :
    ∃ b, a ≤ b ∧ b < a + depth ∧ (∀ c, a ≤ c → c < b → SparsifyDiverges (loss c)) ∧ ¬ SparsifyDiverges (loss b) ∧ X = sparsifyFinish Q (W b) := by
  induction depth generalizing a with
  | zero => cases h
  | succ depth ih =>
    rw [sparsifyBasis] at h
    cases hl : sparsifyLoop (loss a) 3000 0 with
    | true =>
      rw [hl, if_pos rfl] at h
      injection h with h
      refine ⟨a, le_refl _, by omega, fun c h1 h2 => by omega, ?_, h.symm⟩
      rw [← sparsifyLoop_diverges, hl]
      simp
    | false =>
      rw [hl, if_neg (by simp)] at h
      obtain ⟨b, h1, h2, h3, h4⟩ := ih h
      refine ⟨b, by omega, by omega, fun c hc1 hc2 => ?_, h4⟩
      rcases Nat.eq_or_lt_of_le hc1 with rfl | hc1
      · exact (sparsifyLoop_diverges _).1 hl
      · exact h3 c hc1 hc2

/-- **C97, the entries.** Whatever the optimisation did, the array returned has the shape of `Q W.T` for the `W` of some attempt, and its entries are
`0` where `Q W.T` is below 0.01 in absolute value, the sign where it is above, and `±0.01` where it is exactly that. -/
theorem C97_entries {loss : ℕ → ℕ → Fl} {W : ℕ → DMat ℝ} {Q X : DMat ℝ} {depth : ℕ} (h : sparsifyBasis loss W Q depth 0 = .ok X) :
    ∃ a, X.rows = Q.rows ∧ X.cols = (W a).rows ∧ ∀ i j, i < X.rows → j < X.cols →
      ∃ y, y = (Q.mul (W a).transpose).e i j ∧ ((|y| < 1e-2 ∧ X.e i j = 0) ∨ (y > 1e-2 ∧ X.e i j = 1) ∨ (y < -1e-2 ∧ X.e i j = -1) ∨ (|y| = 1e-2 ∧ X.e i j = y)) := by
  obtain ⟨b, -, -, -, -, rfl⟩ := sparsifyBasis_ok h
  refine ⟨b, rfl, rfl, fun i j hi hj => ⟨_, rfl, ?_⟩⟩
  have e : (sparsifyFinish Q (W b)).e i j = sparsifyEntry ((Q.mul (W b).transpose).e i j) := DMat.of_e hi hj
  rw [e]
  exact sparsifyEntry_cases _

/-- **C97, the attempts.** It returns exactly when some attempt the recursion limit allows never sees a loss above 100 after step 100; otherwise a
`RecursionError` is raised (there is no lower bound on the learning rate). -/
theorem C97_returns (loss : ℕ → ℕ → Fl) (W : ℕ → DMat ℝ) (Q : DMat ℝ) (depth : ℕ) :
    ((∃ a < depth, ¬ SparsifyDiverges (loss a)) → ∃ X, sparsifyBasis loss W Q depth 0 = .ok X) ∧
    ((∀ a < depth, SparsifyDiverges (loss a)) → sparsifyBasis loss W Q depth 0 = .error .recursion) := by
  have key : ∀ depth a, ((∃ b, a ≤ b ∧ b < a + depth ∧ ¬ SparsifyDiverges (loss b)) → ∃ X, sparsifyBasis loss W Q depth a = .ok X) ∧
      ((∀ b, a ≤ b → b < a + depth → SparsifyDiverges (loss b)) → sparsifyBasis loss W Q depth a = .error .recursion) := by
    intro depth
    induction depth with
    | zero => exact fun a => ⟨fun ⟨b, h1, h2, _⟩ => by omega, fun _ => rfl⟩
    | succ depth ih =>
      intro a
      rw [sparsifyBasis]
      cases hl : sparsifyLoop (loss a) 3000 0 with
      | true =>
        rw [if_pos rfl]
        refine ⟨fun _ => ⟨_, rfl⟩, fun h => ?_⟩
        have := (sparsifyLoop_diverges _).2 (h a (le_refl _) (by omega))
        rw [hl] at this
        cases this
      | false =>
        rw [if_neg (by simp)]
        have hd := (sparsifyLoop_diverges _).1 hl
        refine ⟨fun ⟨b, h1, h2, h3⟩ => (ih (a + 1)).1 ⟨b, ?_, by omega, h3⟩, fun h => (ih (a + 1)).2 fun b h1 h2 => h b (by omega) (by omega)⟩
        rcases Nat.eq_or_lt_of_le h1 with rfl | h1
        · exact absurd hd h3
        · exact h1
  obtain ⟨h1, h2⟩ := key depth 0
  exact ⟨fun ⟨a, ha, hn⟩ => h1 ⟨a, by omega, by omega, hn⟩, fun h => h2 fun b _ hb => h b (by omega)⟩

/-- **C97, the span.** If the optimisation found an invertible `W` for which every column of `Q W.T` has entries `0` and `± c` for one number
`c > 0.01`, then the columns returned span the same space as those of `Q`. -/
theorem C97_span_partial {loss : ℕ → ℕ → Fl} {W : ℕ → DMat ℝ} {Q X : DMat ℝ} {depth r : ℕ} (hQ : Q.cols = r) (hW : ∀ a, ¬ SparsifyDiverges (loss a) → (W a).IsSq r)
    (hinv : ∀ a, ¬ SparsifyDiverges (loss a) → ∃ V : DMat ℝ, V.IsSq r ∧ (W a).transpose.mul V = DMat.one r) (hcol : ∀ a, ¬ SparsifyDiverges (loss a) → ∀ j < r, ∃ c > (1e-2 : ℝ), ∀ i < Q.rows,
      (Q.mul (W a).transpose).e i j = 0 ∨ |(Q.mul (W a).transpose).e i j| = c) (h : sparsifyBasis loss W Q depth 0 = .ok X) (v : List ℝ) :
    (∃ y : List ℝ, y.length = r ∧ X.mulVec y = v) ↔ ∃ y : List ℝ, y.length = r ∧ Q.mulVec y = v := by
  obtain ⟨b, -, -, -, hb, rfl⟩ := sparsifyBasis_ok h
  obtain ⟨V, hV, hWV⟩ := hinv b hb
  have hWb := hW b hb
  have hT : (W b).transpose.IsSq r := ⟨hWb.2, hWb.1⟩
  have hVW := DMat.mul_eq_one_comm hT hV hWV
  choose c hc hent using hcol b hb
  obtain ⟨P, hP⟩ : ∃ P, P = Q.mul (W b).transpose := ⟨_, rfl⟩
  rw [← hP] at hent
  have hPr : P.rows = Q.rows := by rw [hP]; rfl
  have hPc : P.cols = r := by rw [hP]; exact hT.2
  -- `Q W.T` scaled column by column
  have hX : ∀ i < P.rows, ∀ j (hj : j < r), (sparsifyFinish Q (W b)).e i j = P.e i j / c j hj := by
    intro i hi j hj
    have e : (sparsifyFinish Q (W b)).e i j = sparsifyEntry (P.e i j) := by
      unfold sparsifyFinish
      rw [← hP]
      exact DMat.of_e hi (by rw [hPc]; exact hj)
    have hc0 := hc j hj
    have hpos : (0 : ℝ) < c j hj := by linarith
    rw [e]
    rcases hent j hj i (hPr ▸ hi) with h0 | h0
    · rw [h0, zero_div]
      rcases sparsifyEntry_cases 0 with h | h | h | h
      · exact h.2
      · exact absurd h.1 (by norm_num)
      · exact absurd h.1 (by norm_num)
      · exact h.2
    · rcases sparsifyEntry_cases (P.e i j) with h | h | h | h
      · rw [h0] at h; linarith [h.1]
      · rw [h.2, ← h0, abs_of_pos (by linarith [h.1]), div_self (by linarith [h.1])]
      · rw [h.2, ← h0, abs_of_neg (by linarith [h.1]), div_neg, div_self (by linarith [h.1])]
      · rw [h0] at h; linarith [h.1]
  have hXr : (sparsifyFinish Q (W b)).rows = P.rows := by rw [hP]; rfl
  have hXc : (sparsifyFinish Q (W b)).cols = r := hT.2
  have hstep : (∃ y : List ℝ, y.length = r ∧ (sparsifyFinish Q (W b)).mulVec y = v) ↔ ∃ y : List ℝ, y.length = r ∧ P.mulVec y = v := by
    constructor
    · rintro ⟨y, hy, rfl⟩
      refine ⟨(range r).map fun j => if hj : j < r then y.getD j 0 / c j hj else 0, by simp, DMat.vec_ext (by rw [DMat.length_mulVec, DMat.length_mulVec, hXr]) fun i hi => ?_⟩
      have hi : i < P.rows := by simpa using hi
      rw [DMat.getD_mulVec hi, DMat.getD_mulVec (by rw [hXr]; exact hi), hPc, hXc]
      refine Finset.sum_congr rfl fun j hj => ?_
      have hj := Finset.mem_range.1 hj
      rw [hX i hi j hj, getD_eq_getElem?_getD, getElem?_map, getElem?_range hj]
      simp only [Option.map_some, Option.getD_some, dif_pos hj]
      ring
    · rintro ⟨y, hy, rfl⟩
      refine ⟨(range r).map fun j => if hj : j < r then y.getD j 0 * c j hj else 0, by simp, DMat.vec_ext (by rw [DMat.length_mulVec, DMat.length_mulVec, hXr]) fun i hi => ?_⟩
      have hi : i < P.rows := by rw [← hXr]; simpa using hi
      rw [DMat.getD_mulVec hi, DMat.getD_mulVec (by rw [hXr]; exact hi), hPc, hXc]
      refine Finset.sum_congr rfl fun j hj => ?_
      have hj := Finset.mem_range.1 hj
      have := hc j hj
      rw [hX i hi j hj, getD_eq_getElem?_getD, getElem?_map, getElem?_range hj]
      simp only [Option.map_some, Option.getD_some, dif_pos hj]
      field_simp
  rw [hstep, hP]
  constructor
  · rintro ⟨y, hy, rfl⟩
    exact ⟨(W b).transpose.mulVec y, by rw [DMat.length_mulVec]; exact hT.1, (DMat.mulVec_mul _ _ _ (by rw [hQ]; exact hT.1.symm)).symm⟩
  · rintro ⟨y, hy, rfl⟩
    refine ⟨V.mulVec y, by rw [DMat.length_mulVec]; exact hV.1, ?_⟩
    rw [DMat.mulVec_mul _ _ _ (by rw [hQ]; exact hT.1.symm), ← DMat.mulVec_mul (W b).transpose V y (by rw [hT.2, hV.1]), hWV, DMat.mulVec_one _ hy]

/-- **C97, the span in general.** Even for an orthogonal `W` the result need not be a basis of the same space: the column `(0.6, 0.8)` becomes `(1, 1)`. -/
theorem C97_counterexample_span : ∃ (Q W X : DMat ℝ), W.IsSq 1 ∧ W.mul W.transpose = DMat.one 1 ∧
    (∀ depth > 0, sparsifyBasis (fun _ _ => some 0) (fun _ => W) Q depth 0 = .ok X) ∧ Q.mulVec [1] = [0.6, 0.8] ∧
    X.mulVec [1] = [1, 1] ∧ ¬ ∃ y : ℝ, Q.mulVec [y] = [1, 1] := by
  obtain ⟨Q, hQ⟩ : ∃ Q : DMat ℝ, Q = DMat.of 2 1 fun i _ => if i = 0 then 0.6 else 0.8 := ⟨_, rfl⟩
  have hP : ∀ i < 2, (Q.mul (DMat.one 1 : DMat ℝ).transpose).e i 0 = if i = 0 then 0.6 else 0.8 := by
    intro i hi
    subst hQ
    rw [DMat.mul_e hi (by exact Nat.one_pos), show (DMat.of 2 1 fun i _ => if i = 0 then (0.6 : ℝ) else 0.8).cols = 1 from rfl, Finset.sum_range_one, DMat.transpose_e,
      DMat.one_e Nat.one_pos Nat.one_pos, if_pos rfl, mul_one, DMat.of_e hi Nat.one_pos]
  have hX : ∀ i < 2, (sparsifyFinish Q (DMat.one 1)).e i 0 = 1 := by
    intro i hi
    have e : (sparsifyFinish Q (DMat.one 1)).e i 0 = sparsifyEntry ((Q.mul (DMat.one 1 : DMat ℝ).transpose).e i 0) :=
      DMat.of_e (by subst hQ; exact hi) Nat.one_pos
    rw [e, hP i hi]
    rcases sparsifyEntry_cases (if i = 0 then (0.6 : ℝ) else 0.8) with h | h | h | h
    · exfalso; have := h.1; split_ifs at this <;> norm_num [abs_of_pos] at this
    · exact h.2
    · exfalso; have := h.1; split_ifs at this <;> norm_num at this
    · exfalso; have := h.1; split_ifs at this <;> norm_num [abs_of_pos] at this
  refine ⟨Q, DMat.one 1, sparsifyFinish Q (DMat.one 1), ⟨rfl, rfl⟩, ?_, ?_, ?_, ?_, ?_⟩
  · refine DMat.ext rfl rfl fun i j hi hj => ?_
    have hi : i < 1 := hi
    have hj : j < 1 := hj
    interval_cases i
    interval_cases j
    rw [DMat.mul_e Nat.one_pos (by exact Nat.one_pos), show (DMat.one 1 : DMat ℝ).cols = 1 from rfl, Finset.sum_range_one, DMat.transpose_e, DMat.one_e Nat.one_pos Nat.one_pos]
    simp
  · intro depth hd
    cases depth with
    | zero => omega
    | succ depth =>
      rw [sparsifyBasis]
      cases hl : sparsifyLoop (fun _ => some (0 : ℝ)) 3000 0 with
      | true => rw [if_pos rfl]
      | false =>
        obtain ⟨i, l, -, -, h1, h2⟩ := (sparsifyLoop_diverges _).1 hl
        injection h1 with h1
        rw [← h1] at h2
        norm_num at h2
  · subst hQ
    simp [DMat.mulVec, DMat.of, List.range_succ]
  · have hr : (sparsifyFinish Q (DMat.one 1)).rows = 2 := by subst hQ; rfl
    have hc : (sparsifyFinish Q (DMat.one 1)).cols = 1 := rfl
    simp [DMat.mulVec, hr, hc, List.range_succ, hX]
  · rintro ⟨y, hy⟩
    subst hQ
    simp [DMat.mulVec, DMat.of, List.range_succ] at hy
    obtain ⟨h1, h2⟩ := hy
    linarith

/-- Hypotheses of C97_span_partial: the basis `(0.6, -0.6, 0)` with `W = [1]` becomes `(1, -1, 0)`. -/
example : ∀ j < 1, ∃ c > (1e-2 : ℝ), ∀ i < 3,
    ((DMat.of 3 1 fun i _ => if i = 0 then (0.6 : ℝ) else if i = 1 then -0.6 else 0).mul (DMat.one 1 : DMat ℝ).transpose).e i j = 0 ∨
    |((DMat.of 3 1 fun i _ => if i = 0 then (0.6 : ℝ) else if i = 1 then -0.6 else 0).mul (DMat.one 1 : DMat ℝ).transpose).e i j| = c := by
  intro j hj
  refine ⟨0.6, by norm_num, fun i hi => ?_⟩
  interval_cases j
  rw [DMat.mul_e (by exact hi) (by exact Nat.one_pos), show (DMat.of 3 1 fun i _ => if i = 0 then (0.6 : ℝ) else if i = 1 then -0.6 else 0).cols = 1 from rfl,
    Finset.sum_range_one, DMat.transpose_e, DMat.one_e Nat.one_pos Nat.one_pos, if_pos rfl, mul_one, DMat.of_e hi Nat.one_pos]
  interval_cases i <;> norm_num [abs_of_pos]

/-- Losses that stay above 100: no learning rate helps. -/
example (W : ℕ → DMat ℝ) (Q : DMat ℝ) : sparsifyBasis (fun _ _ => some 1000) W Q 1000 0 = .error .recursion :=
  (C97_returns _ W Q 1000).2 fun _ _ => ⟨101, 1000, by norm_num, by norm_num, rfl, by norm_num⟩

end Verif
