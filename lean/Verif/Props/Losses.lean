import Verif.Model.Losses
import Verif.Lemmas.MulVec
import Verif.Lemmas.DenseInv
import Mathlib.Tactic.NormNum
import Mathlib.Algebra.BigOperators.Field
import Mathlib.Tactic.Positivity
import Mathlib.Tactic.FieldSimp
import Mathlib.Tactic.IntervalCases
import Mathlib.Data.List.GetD

/-!
# C98: losses and metrics
-/
namespace Verif
open List

/-! ### Regression -/

theorem stretched_eq {A : DMat ℝ} {i j : ℕ} (hi : i < A.rows) (hj : j < A.cols) : stretched A i j = A.e i j := by
  unfold stretched
  have e1 : (if A.rows = 1 then 0 else i) = i := by split_ifs <;> omega
  have e2 : (if A.cols = 1 then 0 else j) = j := by split_ifs <;> omega
  rw [e1, e2]

theorem lossSum_range (n : ℕ) (f : ℕ → ℝ) : ((range n).map f).sum = ∑ i ∈ Finset.range n, f i := by
  induction n with
  | zero => rfl
  | succ n ih => rw [range_succ, map_append, sum_append, ih, Finset.sum_range_succ]; simp

theorem meanSq_of (r c : ℕ) (f : ℕ → ℕ → ℝ) (hr : 0 < r) (hc : 0 < c) :
    meanSq (DMat.of r c f) = some ((∑ i ∈ Finset.range r, ∑ j ∈ Finset.range c, f i j ^ 2) / (r * c)) := by
  unfold meanSq fdiv
  have h0 : (((DMat.of r c f).rows * (DMat.of r c f).cols : ℕ) : ℝ) ≠ 0 := by
    exact_mod_cast (Nat.mul_pos hr hc).ne'
  rw [if_neg h0]
  have e : ((range (DMat.of r c f).rows).map fun i => ((range (DMat.of r c f).cols).map fun j => (DMat.of r c f).e i j ^ 2).sum).sum
      = ∑ i ∈ Finset.range r, ∑ j ∈ Finset.range c, f i j ^ 2 := by
    rw [lossSum_range]
    refine Finset.sum_congr rfl fun i hi => ?_
    rw [lossSum_range]
    refine Finset.sum_congr rfl fun j hj => ?_
    rw [DMat.of_e (Finset.mem_range.1 hi) (Finset.mem_range.1 hj)]
  rw [e]
  simp

/-- **C98, regression.** For labels of the shape of the predictions the loss is the mean over all entries of the squared difference; it is nonnegative,
and zero only for equal arrays. -/
theorem C98_mse {P Y : DMat ℝ} (hr : Y.rows = P.rows) (hc : Y.cols = P.cols) (hr0 : 0 < P.rows) (hc0 : 0 < P.cols) :
    ∃ l : ℝ, mse P (.d2 Y) = .ok (some l) ∧
      l = (∑ i ∈ Finset.range P.rows, ∑ j ∈ Finset.range P.cols, (P.e i j - Y.e i j) ^ 2) / (P.rows * P.cols) ∧ 0 ≤ l ∧
      (l = 0 ↔ ∀ i < P.rows, ∀ j < P.cols, P.e i j = Y.e i j) := by
  have hpos : (0 : ℝ) < P.rows * P.cols := by exact_mod_cast Nat.mul_pos hr0 hc0
  have hnn : ∀ i ∈ Finset.range P.rows, 0 ≤ ∑ j ∈ Finset.range P.cols, (P.e i j - Y.e i j) ^ 2 := fun i _ => Finset.sum_nonneg fun j _ => sq_nonneg _
  refine ⟨_, ?_, rfl, div_nonneg (Finset.sum_nonneg hnn) hpos.le, ?_⟩
  · have e : broadcastSub P Y = .ok (DMat.of P.rows P.cols fun i j => stretched P i j - stretched Y i j) := by
      unfold broadcastSub broadcastDim
      rw [if_pos hr.symm, if_pos hc.symm]
      rfl
    rw [mse, e]
    show Except.ok (meanSq _) = _
    rw [meanSq_of _ _ _ hr0 hc0]
    congr 3
    refine Finset.sum_congr rfl fun i hi => Finset.sum_congr rfl fun j hj => ?_
    have hi := Finset.mem_range.1 hi
    have hj := Finset.mem_range.1 hj
    rw [stretched_eq hi hj, stretched_eq (hr ▸ hi) (hc ▸ hj)]
  · rw [div_eq_zero_iff, or_iff_left hpos.ne', Finset.sum_eq_zero_iff_of_nonneg hnn]
    constructor
    · intro h i hi j hj
      have := (Finset.sum_eq_zero_iff_of_nonneg (fun j _ => sq_nonneg _)).1 (h i (Finset.mem_range.2 hi)) j (Finset.mem_range.2 hj)
      exact sub_eq_zero.1 (pow_eq_zero_iff (two_ne_zero) |>.1 this)
    · intro h i hi
      exact Finset.sum_eq_zero fun j hj => by rw [h i (Finset.mem_range.1 hi) j (Finset.mem_range.1 hj), sub_self]; norm_num

/-- **C98, labels without the last axis.** For one output and labels given as a vector, every prediction is compared with every label of the batch. -/
theorem C98_vector_labels {P : DMat ℝ} {y : List ℝ} (hc : P.cols = 1) (hy : y.length = P.rows) (hr0 : 0 < P.rows) :
    mse P (.d1 y) = .ok (some ((∑ i ∈ Finset.range P.rows, ∑ j ∈ Finset.range P.rows, (P.e i 0 - y.getD j 0) ^ 2) / (P.rows * P.rows))) := by
  obtain ⟨Y, hY⟩ : ∃ Y : DMat ℝ, Y = DMat.of 1 y.length fun _ j => y.getD j 0 := ⟨_, rfl⟩
  have hYr : Y.rows = 1 := by rw [hY]; rfl
  have hYc : Y.cols = P.rows := by rw [hY, ← hy]; rfl
  have e : broadcastSub P Y = .ok (DMat.of P.rows P.rows fun i j => stretched P i j - stretched Y i j) := by
    have h1 : broadcastDim P.rows Y.rows = .ok P.rows := by
      unfold broadcastDim
      rw [hYr]
      split_ifs with h1 <;> simp_all
    have h2 : broadcastDim P.cols Y.cols = .ok P.rows := by
      unfold broadcastDim
      rw [hc, hYc]
      split_ifs with h1 <;> simp_all
    unfold broadcastSub
    rw [h1, h2]
    rfl
  rw [mse, ← hY, e]
  show Except.ok (meanSq _) = _
  rw [meanSq_of _ _ _ hr0 hr0]
  congr 3
  refine Finset.sum_congr rfl fun i hi => Finset.sum_congr rfl fun j hj => ?_
  have hi := Finset.mem_range.1 hi
  have hj := Finset.mem_range.1 hj
  have e1 : stretched P i j = P.e i 0 := by
    unfold stretched
    rw [if_pos hc]
    congr 1
    split_ifs <;> omega
  have e2 : stretched Y i j = y.getD j 0 := by
    unfold stretched
    rw [if_pos hYr, hYc, hY]
    have : (if P.rows = 1 then 0 else j) = j := by split_ifs <;> omega
    rw [this, DMat.of_e Nat.one_pos (by rw [hy]; exact hj)]
  rw [e1, e2]

/-- **C98, labels without the last axis: counterexample.** Perfect predictions then have a positive loss, as soon as two labels of the batch differ. -/
theorem C98_counterexample_vector_labels {y : List ℝ} {a b : ℕ} (ha : a < y.length) (hb : b < y.length) (hab : y.getD a 0 ≠ y.getD b 0) :
    ∃ l : ℝ, 0 < l ∧ mse (DMat.of y.length 1 fun i _ => y.getD i 0) (.d1 y) = .ok (some l) := by
  have hn : 0 < y.length := by omega
  refine ⟨_, ?_, C98_vector_labels (P := DMat.of y.length 1 fun i _ => y.getD i 0) rfl rfl hn⟩
  refine div_pos ?_ (mul_pos ?_ ?_)
  · refine Finset.sum_pos' (fun i _ => Finset.sum_nonneg fun j _ => sq_nonneg _) ⟨a, Finset.mem_range.2 ha, ?_⟩
    refine Finset.sum_pos' (fun j _ => sq_nonneg _) ⟨b, Finset.mem_range.2 hb, ?_⟩
    rw [DMat.of_e ha Nat.one_pos]
    exact pow_pos_of_ne (sub_ne_zero.2 hab)
  all_goals exact_mod_cast hn
where
  pow_pos_of_ne {x : ℝ} (h : x ≠ 0) : 0 < x ^ 2 := by positivity

/-- **C98, other shapes.** Labels with another number of columns, neither number being one, are refused. -/
theorem C98_refused {P Y : DMat ℝ} (hr : P.rows = Y.rows) (hc : P.cols ≠ Y.cols) (h1 : P.cols ≠ 1) (h2 : Y.cols ≠ 1) : mse P (.d2 Y) = .error .type := by
  unfold mse broadcastSub broadcastDim
  dsimp only
  rw [if_pos hr, if_neg hc, if_neg h1, if_neg h2]
  rfl

/-- The matrix with the given rows. -/
def stackRows (n : ℕ) (rows : List (List ℝ)) : DMat ℝ := DMat.of rows.length n fun i j => (rows.getD i []).getD j 0

theorem orth_dist {A : DMat ℝ} {n : ℕ} (hA : A.IsSq n) (ho : A.transpose.mul A = DMat.one n) (u v : List ℝ) (hu : u.length = n) (hv : v.length = n) :
    ∑ j ∈ Finset.range n, ((A.mulVec u).getD j 0 - (A.mulVec v).getD j 0) ^ 2 = ∑ j ∈ Finset.range n, (u.getD j 0 - v.getD j 0) ^ 2 := by
  obtain ⟨w, hw⟩ : ∃ w : ℕ → ℝ, w = fun j => u.getD j 0 - v.getD j 0 := ⟨_, rfl⟩
  have e1 : ∀ j ∈ Finset.range n, ((A.mulVec u).getD j 0 - (A.mulVec v).getD j 0) ^ 2 = (∑ k ∈ Finset.range n, A.e j k * w k) * (∑ l ∈ Finset.range n, A.e j l * w l) := by
    intro j hj
    have hj := Finset.mem_range.1 hj
    rw [DMat.getD_mulVec (by rw [hA.1]; exact hj), DMat.getD_mulVec (by rw [hA.1]; exact hj), hA.2, ← Finset.sum_sub_distrib, pow_two, hw]
    simp only [mul_sub]
  rw [Finset.sum_congr rfl e1]
  have e2 : ∀ k < n, ∀ l < n, ∑ j ∈ Finset.range n, A.e j k * A.e j l = if k = l then 1 else 0 := by
    intro k hk l hl
    have hA2 := hA.2
    have h : (A.transpose.mul A).e k l = (DMat.one n : DMat ℝ).e k l := by rw [ho]
    rw [DMat.mul_e (show k < A.cols by omega) (by omega), DMat.one_e hk hl] at h
    rw [← h, show A.transpose.cols = n from hA.1]
    exact Finset.sum_congr rfl fun j _ => by rw [DMat.transpose_e]
  calc ∑ j ∈ Finset.range n, (∑ k ∈ Finset.range n, A.e j k * w k) * (∑ l ∈ Finset.range n, A.e j l * w l)
      = ∑ j ∈ Finset.range n, ∑ k ∈ Finset.range n, ∑ l ∈ Finset.range n, (A.e j k * A.e j l) * (w k * w l) := by
        refine Finset.sum_congr rfl fun j _ => ?_
        rw [Finset.sum_mul_sum]
        exact Finset.sum_congr rfl fun k _ => Finset.sum_congr rfl fun l _ => by ring
    _ = ∑ k ∈ Finset.range n, ∑ l ∈ Finset.range n, (∑ j ∈ Finset.range n, A.e j k * A.e j l) * (w k * w l) := by
        rw [Finset.sum_comm]
        refine Finset.sum_congr rfl fun k _ => ?_
        rw [Finset.sum_comm]
        exact Finset.sum_congr rfl fun l _ => by rw [Finset.sum_mul]
    _ = ∑ k ∈ Finset.range n, (u.getD k 0 - v.getD k 0) ^ 2 := by
        refine Finset.sum_congr rfl fun k hk => ?_
        have hk' := Finset.mem_range.1 hk
        rw [Finset.sum_eq_single k (fun l hl hlk => by rw [e2 k hk' l (Finset.mem_range.1 hl), if_neg (Ne.symm hlk), zero_mul]) (fun h => absurd hk h),
          e2 k hk' k hk', if_pos rfl, one_mul, hw, pow_two]

/-- **C98, symmetry of the regression loss.** For a model `f` that is equivariant under the elements drawn for a batch, and orthogonal output
representations, moving every input and its label by the element drawn for it does not change the loss. -/
theorem C98_mse_symmetric {n : ℕ} (f : List ℝ → List ℝ) (hlen : ∀ x, (f x).length = n) (rin rout : DMat ℝ → DMat ℝ) (batch : List (DMat ℝ × List ℝ × List ℝ))
    (hf : ∀ b ∈ batch, f ((rin b.1).mulVec b.2.1) = (rout b.1).mulVec (f b.2.1)) (hsq : ∀ b ∈ batch, (rout b.1).IsSq n)
    (horth : ∀ b ∈ batch, (rout b.1).transpose.mul (rout b.1) = DMat.one n) (hy : ∀ b ∈ batch, b.2.2.length = n) :
    mse (stackRows n (batch.map fun b => f ((rin b.1).mulVec b.2.1))) (.d2 (stackRows n (batch.map fun b => (rout b.1).mulVec b.2.2)))
      = mse (stackRows n (batch.map fun b => f b.2.1)) (.d2 (stackRows n (batch.map fun b => b.2.2))) := by
  have key : ∀ (P Y : DMat ℝ), P.rows = batch.length → P.cols = n → Y.rows = batch.length → Y.cols = n →
      mse P (.d2 Y) = .ok (fdiv (∑ i ∈ Finset.range batch.length, ∑ j ∈ Finset.range n, (P.e i j - Y.e i j) ^ 2) (batch.length * n : ℕ)) := by
    intro P Y h1 h2 h3 h4
    have e : broadcastSub P Y = .ok (DMat.of P.rows P.cols fun i j => stretched P i j - stretched Y i j) := by
      unfold broadcastSub broadcastDim
      rw [if_pos (h1.trans h3.symm), if_pos (h2.trans h4.symm)]
      rfl
    rw [mse, e]
    show Except.ok (meanSq _) = _
    unfold meanSq
    congr 2
    · show ((range P.rows).map _).sum = _
      rw [lossSum_range, h1]
      refine Finset.sum_congr rfl fun i hi => ?_
      have hi := Finset.mem_range.1 hi
      show ((range P.cols).map _).sum = _
      rw [lossSum_range, h2]
      refine Finset.sum_congr rfl fun j hj => ?_
      have hj := Finset.mem_range.1 hj
      rw [DMat.of_e hi hj, stretched_eq (by omega) (by omega), stretched_eq (by omega) (by omega)]
    · show ((P.rows * P.cols : ℕ) : ℝ) = _
      rw [h1, h2]
  have hrows : ∀ g : DMat ℝ × List ℝ × List ℝ → List ℝ, ∀ i (hi : i < batch.length), ∀ j < n, (stackRows n (batch.map g)).e i j = (g batch[i]).getD j 0 := by
    intro g i hi j hj
    unfold stackRows
    rw [DMat.of_e (by simpa using hi) hj, getD_eq_getElem (batch.map g) _ (by simpa using hi), getElem_map]
  rw [key _ _ (by simp [stackRows, DMat.of]) rfl (by simp [stackRows, DMat.of]) rfl, key _ _ (by simp [stackRows, DMat.of]) rfl (by simp [stackRows, DMat.of]) rfl]
  congr 2
  refine Finset.sum_congr rfl fun i hi => ?_
  have hi := Finset.mem_range.1 hi
  have hm : batch[i] ∈ batch := getElem_mem hi
  rw [Finset.sum_congr rfl fun j hj => by rw [hrows _ i hi j (Finset.mem_range.1 hj), hrows _ i hi j (Finset.mem_range.1 hj), hf _ hm],
    orth_dist (hsq _ hm) (horth _ hm) _ _ (hlen _) (hy _ hm)]
  exact (Finset.sum_congr rfl fun j hj => by rw [hrows _ i hi j (Finset.mem_range.1 hj), hrows _ i hi j (Finset.mem_range.1 hj)]).symm

/-! ### Classification -/

theorem meanFl_some (l : List ℝ) : meanFl (l.map some) = meanOf l := by
  have e : (l.map some).mapM id = some l := by
    induction l with
    | nil => rfl
    | cons a l ih => rw [map_cons, mapM_cons, ih]; rfl
  unfold meanFl
  rw [e]
  rfl

theorem takeAlong_range {oob : List ℝ → ℤ → Fl} {row : List ℝ} {t : ℤ} (h0 : 0 ≤ t) (h1 : t < row.length) : takeAlong oob row t = some (row.getD t.toNat 0) := by
  unfold takeAlong
  simp only [if_neg (not_lt.2 h0), if_pos (And.intro h0 h1)]

theorem logSoftmax_getD {z : List ℝ} {j : ℕ} (hj : j < z.length) : (logSoftmax z).getD j 0 = z.getD j 0 - Real.log (z.map Real.exp).sum := by
  unfold logSoftmax
  rw [getD_eq_getElem _ _ (by simpa using hj), getElem_map, getD_eq_getElem _ _ hj]

/-- The probabilities given to the classes by a row of logits. -/
def IsSoftmax (z : List ℝ) (p : ℕ → ℝ) : Prop :=
  (∀ j < z.length, 0 < p j) ∧ ∑ j ∈ Finset.range z.length, p j = 1 ∧ ∀ j < z.length, ∀ k < z.length, p j * Real.exp (z.getD k 0) = p k * Real.exp (z.getD j 0)

theorem list_sum_eq (l : List ℝ) (f : ℝ → ℝ) : (l.map f).sum = ∑ j ∈ Finset.range l.length, f (l.getD j 0) := by
  rw [← lossSum_range]
  congr 1
  refine ext_getElem (by simp) fun i h1 h2 => ?_
  have hi : i < l.length := by simpa using h1
  rw [getElem_map, getElem_map, getElem_range, getD_eq_getElem _ _ hi]

theorem exists_softmax {z : List ℝ} (hz : z ≠ []) :
    IsSoftmax z (fun j => Real.exp (z.getD j 0) / (z.map Real.exp).sum) ∧ 0 < (z.map Real.exp).sum := by
  have hpos : 0 < (z.map Real.exp).sum := by
    rw [list_sum_eq]
    exact Finset.sum_pos (fun j _ => Real.exp_pos _) ⟨0, Finset.mem_range.2 (length_pos_iff.2 hz)⟩
  refine ⟨⟨fun j _ => div_pos (Real.exp_pos _) hpos, ?_, fun j _ k _ => by ring⟩, hpos⟩
  rw [← Finset.sum_div, ← list_sum_eq, div_self hpos.ne']

theorem IsSoftmax.unique {z : List ℝ} {p q : ℕ → ℝ} (hp : IsSoftmax z p) (hq : IsSoftmax z q) : ∀ j < z.length, p j = q j := by
  intro j hj
  have h1 : ∀ r : ℕ → ℝ, IsSoftmax z r → r j * ∑ k ∈ Finset.range z.length, Real.exp (z.getD k 0) = Real.exp (z.getD j 0) := by
    intro r hr
    rw [Finset.mul_sum, Finset.sum_congr rfl fun k hk => hr.2.2 j hj k (Finset.mem_range.1 hk), ← Finset.sum_mul, hr.2.1, one_mul]
  have hpos : 0 < ∑ k ∈ Finset.range z.length, Real.exp (z.getD k 0) := Finset.sum_pos (fun k _ => Real.exp_pos _) ⟨j, Finset.mem_range.2 hj⟩
  exact mul_right_cancel₀ hpos.ne' ((h1 p hp).trans (h1 q hq).symm)

/-- **C98, classification loss.** For labels that are class numbers it is the mean over the batch of `-log p`, `p` the probability that the
softmax of the logits gives to the label; it is nonnegative. -/
theorem C98_cross_entropy {oob : List ℝ → ℤ → Fl} {logits : List (List ℝ)} {targets : List ℤ} (hl : targets.length = logits.length) (h0 : logits ≠ [])
    (ht : ∀ i < logits.length, 0 ≤ targets.getD i 0 ∧ targets.getD i 0 < (logits.getD i []).length) (p : ℕ → ℕ → ℝ)
    (hp : ∀ i < logits.length, IsSoftmax (logits.getD i []) (p i)) :
    ∃ l, classifierLoss oob logits targets = some l ∧ 0 ≤ l ∧
      l = (∑ i ∈ Finset.range logits.length, -Real.log (p i (targets.getD i 0).toNat)) / logits.length := by
  have hn : 0 < logits.length := length_pos_iff.2 h0
  have hz : ∀ i < logits.length, logits.getD i [] ≠ [] := by
    intro i hi h
    have := ht i hi
    rw [h] at this
    simp only [length_nil] at this
    omega
  have hval : ∀ i < logits.length, takeAlong oob (logSoftmax (logits.getD i [])) (targets.getD i 0) = some (Real.log (p i (targets.getD i 0).toNat)) := by
    intro i hi
    obtain ⟨h1, h2⟩ := ht i hi
    obtain ⟨hs, hpos⟩ := exists_softmax (hz i hi)
    have hj : (targets.getD i 0).toNat < (logits.getD i []).length := by omega
    rw [takeAlong_range h1 (by unfold logSoftmax; rw [length_map]; exact h2), logSoftmax_getD hj, (hp i hi).unique hs _ hj, Real.log_div (Real.exp_pos _).ne' hpos.ne', Real.log_exp]
  have hzip : zipWith (takeAlong oob) (logits.map logSoftmax) targets = ((range logits.length).map fun i => Real.log (p i (targets.getD i 0).toNat)).map some := by
    refine ext_getElem (by simp [hl]) fun i h1 h2 => ?_
    have hi : i < logits.length := by simpa using h2
    have hv := hval i hi
    rw [getD_eq_getElem _ _ hi, getD_eq_getElem _ _ (by omega)] at hv
    rw [getElem_zipWith, getElem_map, hv, getElem_map, getElem_map, getElem_range, getD_eq_getElem _ _ (by omega)]
  refine ⟨_, ?_, ?_, rfl⟩
  · unfold classifierLoss crossEntropy
    rw [hzip, meanFl_some]
    unfold meanOf fdiv
    rw [if_neg (by simpa using h0), lossSum_range]
    simp [Finset.sum_neg_distrib, neg_div]
  · refine div_nonneg (Finset.sum_nonneg fun i hi => ?_) (Nat.cast_nonneg _)
    have hi := Finset.mem_range.1 hi
    obtain ⟨h1, h2⟩ := ht i hi
    have hj : (targets.getD i 0).toNat < (logits.getD i []).length := by omega
    obtain ⟨a1, a2, -⟩ := hp i hi
    have : p i (targets.getD i 0).toNat ≤ 1 := by
      rw [← a2]
      exact Finset.single_le_sum (f := p i) (fun j hj => (a1 j (Finset.mem_range.1 hj)).le) (Finset.mem_range.2 hj)
    linarith [Real.log_nonpos (a1 _ hj).le this]

/-- `t` is the number of the first of the largest entries of the row. -/
def IsFirstMax (row : List ℝ) (t : ℤ) : Prop :=
  ∃ k : ℕ, t = k ∧ k < row.length ∧ ∀ j < row.length, row.getD j 0 ≤ row.getD k 0 ∧ (j < k → row.getD j 0 < row.getD k 0)

theorem argmaxFrom_spec (pre as : List ℝ) (best : ℕ) (hb : best < pre.length)
    (hmax : ∀ j < pre.length, pre.getD j 0 ≤ pre.getD best 0 ∧ (j < best → pre.getD j 0 < pre.getD best 0)) :
    IsFirstMax (pre ++ as) (argmaxFrom best (pre.getD best 0) pre.length as) := by
  induction as generalizing pre best with
  | nil =>
    rw [append_nil]
    exact ⟨best, rfl, hb, hmax⟩
  | cons a as ih =>
    have hlast : (pre ++ [a]).getD pre.length 0 = a := by
      rw [getD_append_right _ _ _ _ (le_refl _)]
      simp
    have hold : ∀ j < pre.length, (pre ++ [a]).getD j 0 = pre.getD j 0 := fun j hj => getD_append _ _ _ _ hj
    rw [argmaxFrom, show pre ++ a :: as = (pre ++ [a]) ++ as by simp]
    split_ifs with hlt
    · have := ih (pre ++ [a]) pre.length (by simp) (fun j hj => by
        rw [hlast]
        rcases Nat.lt_or_ge j pre.length with h | h
        · rw [hold j h]
          have := (hmax j h).1
          exact ⟨by linarith, fun _ => by linarith⟩
        · have : j = pre.length := by simp at hj; omega
          subst this
          rw [hlast]
          exact ⟨le_refl _, fun h => absurd h (lt_irrefl _)⟩)
      rw [hlast, length_append, length_singleton] at this
      exact this
    · have := ih (pre ++ [a]) best (by simp; omega) (fun j hj => by
        rw [hold best hb]
        rcases Nat.lt_or_ge j pre.length with h | h
        · rw [hold j h]
          exact hmax j h
        · have : j = pre.length := by simp at hj; omega
          subst this
          rw [hlast]
          exact ⟨not_lt.1 hlt, fun h => absurd h (by omega)⟩)
      rw [hold best hb, length_append, length_singleton] at this
      exact this

theorem argmax_spec {row : List ℝ} (h : row ≠ []) : ∃ k : ℕ, argmax row = .ok k ∧ IsFirstMax row k := by
  cases row with
  | nil => exact absurd rfl h
  | cons a as =>
    refine ⟨_, rfl, ?_⟩
    have := argmaxFrom_spec [a] as 0 (by simp) (fun j hj => by
      have : j = 0 := by simpa using hj
      subst this
      exact ⟨le_refl _, fun h => absurd h (lt_irrefl _)⟩)
    simpa using this

theorem IsFirstMax.unique {row : List ℝ} {s t : ℤ} (hs : IsFirstMax row s) (ht : IsFirstMax row t) : s = t := by
  obtain ⟨k, rfl, hk, h1⟩ := hs
  obtain ⟨l, rfl, hl, h2⟩ := ht
  rcases lt_trichotomy k l with h | h | h
  · exact absurd ((h2 k hk).2 h) (not_lt.2 (h1 l hl).1)
  · rw [h]
  · exact absurd ((h1 l hl).2 h) (not_lt.2 (h2 k hk).1)

open Classical in
/-- **C98, accuracy.** It is the share of the rows of the batch whose label is the first of the classes with the largest logit. -/
theorem C98_accuracy {logits : List (List ℝ)} {targets : List ℤ} (hl : targets.length = logits.length) (h0 : logits ≠ []) (hrow : ∀ z ∈ logits, z ≠ []) :
    accuracy logits targets
      = .ok (some (((Finset.range logits.length).filter fun i => IsFirstMax (logits.getD i []) (targets.getD i 0)).card / logits.length)) := by
  have hbest : ∃ best : List ℕ, logits.mapM argmax = .ok best ∧ best.length = logits.length ∧
      ∀ i < logits.length, IsFirstMax (logits.getD i []) (best.getD i 0 : ℕ) := by
    clear hl h0
    induction logits with
    | nil => exact ⟨[], rfl, rfl, fun i hi => absurd hi (by simp)⟩
    | cons z zs ih =>
      obtain ⟨best, h1, h2, h3⟩ := ih fun z hz => hrow z (mem_cons_of_mem _ hz)
      obtain ⟨k, hk, hm⟩ := argmax_spec (hrow z mem_cons_self)
      refine ⟨k :: best, by rw [mapM_cons, hk, h1]; rfl, by simp [h2], fun i hi => ?_⟩
      cases i with
      | zero => simpa using hm
      | succ i => simpa using h3 i (by simpa using hi)
  obtain ⟨best, h1, h2, h3⟩ := hbest
  unfold accuracy
  rw [h1]
  show Except.ok (meanOf _) = _
  have hzip : zipWith (fun (i : ℕ) (t : ℤ) => if (i : ℤ) = t then (1 : ℝ) else 0) best targets
      = (range logits.length).map fun i => if IsFirstMax (logits.getD i []) (targets.getD i 0) then (1 : ℝ) else 0 := by
    refine ext_getElem (by simp [hl, h2]) fun i ha hb => ?_
    have hi : i < logits.length := by simpa using hb
    have hm := h3 i hi
    rw [getElem_zipWith, getElem_map, getElem_range, getD_eq_getElem targets _ (by omega)]
    rw [getD_eq_getElem best _ (by omega)] at hm
    by_cases hc : ((best[i]'(by omega) : ℕ) : ℤ) = targets[i]'(by omega)
    · rw [if_pos hc, if_pos (hc ▸ hm)]
    · rw [if_neg hc, if_neg fun h => hc (hm.unique h)]
  rw [hzip]
  unfold meanOf fdiv
  rw [if_neg (by simpa using h0), lossSum_range, Finset.sum_boole]
  simp

/-- **C98, shifts.** Adding a constant to all the logits of a row changes neither the loss nor the accuracy. -/
theorem C98_shift {oob : List ℝ → ℤ → Fl} (logits : List (List ℝ)) (c : List ℝ → ℝ) (targets : List ℤ) (hrow : ∀ z ∈ logits, z ≠ []) :
    classifierLoss oob (logits.map fun z => z.map (· + c z)) targets = classifierLoss oob logits targets ∧
    accuracy (logits.map fun z => z.map (· + c z)) targets = accuracy logits targets := by
  constructor
  · unfold classifierLoss
    congr 1
    rw [map_map]
    refine map_congr_left fun z hz => ?_
    obtain ⟨-, hpos⟩ := exists_softmax (hrow z hz)
    have e : ((z.map (· + c z)).map Real.exp).sum = (z.map Real.exp).sum * Real.exp (c z) := by
      rw [map_map]
      rw [← List.sum_map_mul_right]
      congr 1
      exact map_congr_left fun a _ => by simp [Real.exp_add]
    show logSoftmax (z.map (· + c z)) = logSoftmax z
    unfold logSoftmax
    rw [e, Real.log_mul hpos.ne' (Real.exp_pos _).ne', Real.log_exp, map_map]
    exact map_congr_left fun a _ => by simp only [Function.comp]; ring
  · have hfrom : ∀ (d : ℝ) (as : List ℝ) (best : ℕ) (bv : ℝ) (i : ℕ), argmaxFrom best (bv + d) i (as.map (· + d)) = argmaxFrom best bv i as := by
      intro d as
      induction as with
      | nil => exact fun _ _ _ => rfl
      | cons a as ih =>
        intro best bv i
        rw [map_cons, argmaxFrom, argmaxFrom, ih, ih]
        simp only [add_lt_add_iff_right]
    have hmap : ∀ l : List (List ℝ), (l.map fun z => z.map (· + c z)).mapM argmax = l.mapM argmax := by
      intro l
      induction l with
      | nil => rfl
      | cons z zs ih =>
        rw [map_cons, mapM_cons, mapM_cons, ih]
        congr 1
        cases z with
        | nil => rfl
        | cons a as => rw [map_cons, argmax, argmax, hfrom]
    unfold accuracy
    rw [hmap]

/-- **C98, labels that are not class numbers.** The label `-1` is the last class for the loss, but never counted as correct by the accuracy. -/
theorem C98_counterexample_negative_label (oob : List ℝ → ℤ → Fl) (z : List ℝ) (hz : z ≠ []) :
    classifierLoss oob [z] [-1] = classifierLoss oob [z] [(z.length : ℤ) - 1] ∧ accuracy [z] [-1] = .ok (some 0) := by
  have hn : 0 < z.length := length_pos_iff.2 hz
  have hlen : (logSoftmax z).length = z.length := by simp [logSoftmax]
  constructor
  · unfold classifierLoss crossEntropy
    simp only [map_cons, map_nil, zipWith_cons_cons, zipWith_nil_right]
    have e1 : takeAlong oob (logSoftmax z) ((z.length : ℤ) - 1) = some ((logSoftmax z).getD (z.length - 1) 0) := by
      rw [takeAlong_range (by omega) (by rw [hlen]; omega)]
      congr 2
      omega
    have e2 : takeAlong oob (logSoftmax z) (-1) = some ((logSoftmax z).getD (z.length - 1) 0) := by
      unfold takeAlong
      dsimp only
      rw [if_pos (show (-1 : ℤ) < 0 by norm_num), hlen, if_pos (by omega)]
      congr 2
      omega
    rw [e1, e2]
  · rw [C98_accuracy rfl (by simp) (by simpa using hz)]
    have : ¬ IsFirstMax z (-1) := by
      rintro ⟨k, hk, -⟩
      omega
    simp [this]

/-! ### The hypotheses are met -/

/-- Two rows, three classes. -/
example (oob : List ℝ → ℤ → Fl) : ∃ l, classifierLoss oob [[0, 1, 2], [3, 1, 0]] [2, 0] = some l ∧ 0 ≤ l := by
  obtain ⟨l, h1, h2, -⟩ := C98_cross_entropy (oob := oob) (logits := [[0, 1, 2], [3, 1, 0]]) (targets := [2, 0]) rfl (by simp)
    (fun i hi => by have : i < 2 := hi; interval_cases i <;> simp)
    (fun i j => Real.exp (([[0, 1, 2], [3, 1, 0]] : List (List ℝ)).getD i [] |>.getD j 0) / ((([[0, 1, 2], [3, 1, 0]] : List (List ℝ)).getD i []).map Real.exp).sum)
    (fun i hi => by have : i < 2 := hi; interval_cases i <;> exact (exists_softmax (by simp)).1)
  exact ⟨l, h1, h2⟩

/-- Both of these rows are classified correctly, the third is not. -/
example : IsFirstMax [0, 1, 2] 2 ∧ IsFirstMax [3, 1, 3] 0 ∧ ¬ IsFirstMax [3, 1, 3] 2 := by
  refine ⟨⟨2, rfl, by simp, fun j hj => ?_⟩, ⟨0, rfl, by simp, fun j hj => ?_⟩, ?_⟩
  · have : j < 3 := hj
    interval_cases j <;> norm_num
  · have : j < 3 := hj
    interval_cases j <;> norm_num
  · rintro ⟨k, hk, -, h⟩
    have : k = 2 := by omega
    subst this
    have := (h 0 (by simp)).2 (by norm_num)
    norm_num at this

/-- The identity is equivariant, and a swap of coordinates orthogonal. -/
example : (DMat.of 2 2 fun i j => if i = j then (0 : ℝ) else 1).transpose.mul (DMat.of 2 2 fun i j => if i = j then (0 : ℝ) else 1) = DMat.one 2 := by
  refine DMat.ext rfl rfl fun i j hi hj => ?_
  have hi : i < 2 := hi
  have hj : j < 2 := hj
  rw [DMat.mul_e hi hj, DMat.one_e hi hj, show (DMat.of 2 2 fun i j => if i = j then (0 : ℝ) else 1).transpose.cols = 2 from rfl,
    Finset.sum_range_succ, Finset.sum_range_one, DMat.transpose_e, DMat.transpose_e, DMat.of_e (by norm_num) hi, DMat.of_e (by norm_num) hi, DMat.of_e (by norm_num) hj, DMat.of_e (by norm_num) hj]
  interval_cases i <;> interval_cases j <;> norm_num

/-- Perfect predictions of two labels, with a positive loss. -/
example : ∃ l : ℝ, 0 < l ∧ mse (DMat.of 2 1 fun i _ => [1, 2].getD i 0) (.d1 [1, 2]) = .ok (some l) :=
  C98_counterexample_vector_labels (y := [1, 2]) (a := 0) (b := 1) (by simp) (by simp) (by norm_num)

end Verif
