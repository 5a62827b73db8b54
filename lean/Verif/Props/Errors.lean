import Mathlib.Analysis.InnerProductSpace.PiL2
import Mathlib.Analysis.SpecialFunctions.Pow.Real
import Verif.Model.Errors
import Verif.Lemmas.MulVec
import Verif.Props.Trainer
import Verif.Props.FrontEnds

/-!
# C94, C95: error measures
-/
namespace Verif
open List

/-- The root mean square of the entries. -/
noncomputable def rmsR (a : List ℝ) : ℝ := Real.sqrt ((a.map fun x => x ^ 2).sum / a.length)

theorem rms_some {a : List ℝ} (h : a ≠ []) : rms a = some (rmsR a) := by
  have : ((a.map fun x : ℝ => |x| ^ 2).length : ℝ) ≠ 0 := by
    rw [length_map]
    exact_mod_cast fun e => h (length_eq_zero_iff.1 e)
  unfold rms meanOf fdiv rmsR
  rw [if_neg this, length_map]
  simp only [sq_abs]
  rfl

theorem rms_nil : rms [] = none := by simp [rms, meanOf, fdiv]

theorem rmsR_nonneg (a : List ℝ) : 0 ≤ rmsR a := Real.sqrt_nonneg _

theorem sum_sq_nonneg (a : List ℝ) : 0 ≤ (a.map fun x => x ^ 2).sum := by
  induction a with
  | nil => simp
  | cons x a ih => rw [map_cons, sum_cons]; exact add_nonneg (sq_nonneg x) ih

theorem sum_sq_eq_zero (a : List ℝ) : (a.map fun x => x ^ 2).sum = 0 ↔ ∀ x ∈ a, x = 0 := by
  induction a with
  | nil => simp
  | cons x a ih =>
    rw [map_cons, sum_cons, add_eq_zero_iff_of_nonneg (sq_nonneg x) (sum_sq_nonneg a), ih]
    simp

theorem rmsR_eq_zero (a : List ℝ) : rmsR a = 0 ↔ ∀ x ∈ a, x = 0 := by
  unfold rmsR
  rw [Real.sqrt_eq_zero (div_nonneg (sum_sq_nonneg a) (Nat.cast_nonneg _)), div_eq_zero_iff, sum_sq_eq_zero]
  constructor
  · rintro (h | h)
    · exact h
    · have : a = [] := length_eq_zero_iff.1 (by exact_mod_cast h)
      subst this; simp
  · exact Or.inl

theorem sum_sq_norm {n : ℕ} (v : Fin n → ℝ) : Real.sqrt ((List.ofFn v).map fun x => x ^ 2).sum = ‖(WithLp.toLp 2 v : EuclideanSpace ℝ (Fin n))‖ := by
  rw [EuclideanSpace.norm_eq, map_ofFn, List.sum_ofFn]
  simp

theorem subArr_ofFn {n : ℕ} (v w : Fin n → ℝ) : subArr (List.ofFn v) (List.ofFn w) = List.ofFn (v - w) := by
  unfold subArr
  refine ext_getElem (by simp) fun i h1 h2 => ?_
  simp

/-- The triangle inequality. -/
theorem rmsR_sub_le {a b : List ℝ} (h : a.length = b.length) : rmsR (subArr a b) ≤ rmsR a + rmsR b := by
  have hl : (subArr a b).length = a.length := by simp [subArr, h]
  unfold rmsR
  rw [hl, ← h, Real.sqrt_div (sum_sq_nonneg _), Real.sqrt_div (sum_sq_nonneg _), Real.sqrt_div (sum_sq_nonneg _), ← add_div]
  refine div_le_div_of_nonneg_right ?_ (Real.sqrt_nonneg _)
  obtain ⟨n, hn⟩ : ∃ n, n = a.length := ⟨_, rfl⟩
  obtain ⟨v, rfl⟩ : ∃ v : Fin n → ℝ, List.ofFn v = a := ⟨fun i => a.get (i.cast hn), by subst hn; exact List.ofFn_get a⟩
  rw [← hn] at h
  obtain ⟨w, rfl⟩ : ∃ w : Fin n → ℝ, List.ofFn w = b := ⟨fun i => b.get (i.cast h), by subst h; exact List.ofFn_get b⟩
  rw [subArr_ofFn, sum_sq_norm, sum_sq_norm, sum_sq_norm]
  exact norm_sub_le (WithLp.toLp 2 v : EuclideanSpace ℝ (Fin n)) (WithLp.toLp 2 w)

theorem subArr_zero {a b : List ℝ} (h : a.length = b.length) : (∀ x ∈ subArr a b, x = 0) ↔ a = b := by
  induction a generalizing b with
  | nil =>
    have : b = [] := length_eq_zero_iff.1 h.symm
    subst this
    simp [subArr]
  | cons x a ih =>
    cases b with
    | nil => simp at h
    | cons y b =>
      have := ih (b := b) (by simpa using h)
      unfold subArr at this ⊢
      rw [zipWith_cons_cons, forall_mem_cons, this, sub_eq_zero, cons.injEq]

/-! ## The measure of the library -/

/-- **C94, range.** The error of two arrays of the same shape, with entries, is a number between 0 and 1, and 0 exactly when they agree. -/
theorem C94_range {t1 t2 : List ℝ} (h : t1.length = t2.length) (h1 : t1 ≠ []) {g : List (DMat ℝ)} (hg : minusEye g ≠ []) :
    ∃ e, scaleAdjustedRelError t1 t2 g = some e ∧ 0 ≤ e ∧ e ≤ 1 ∧ (e = 0 ↔ t1 = t2) := by
  have h2 : t2 ≠ [] := by rintro rfl; simp at h; exact h1 h
  have hs : subArr t1 t2 ≠ [] := by
    intro e
    have := congrArg length e
    simp [subArr, h] at this
    exact h2 this
  have hp : 0 < max (max (rmsR t1 + rmsR t2) (rmsR (minusEye g))) (1 / 10 ^ 7 : ℝ) := lt_of_lt_of_le (by norm_num) (le_max_right _ _)
  refine ⟨rmsR (subArr t1 t2) / max (max (rmsR t1 + rmsR t2) (rmsR (minusEye g))) (1 / 10 ^ 7), ?_, div_nonneg (rmsR_nonneg _) hp.le, ?_, ?_⟩
  · unfold scaleAdjustedRelError
    rw [rms_some hs, rms_some h1, rms_some h2, rms_some hg]
    show fdiv _ _ = _
    rw [fdiv, if_neg hp.ne']
  · rw [div_le_one hp]
    exact (rmsR_sub_le h).trans ((le_max_left _ _).trans (le_max_left _ _))
  · rw [div_eq_zero_iff, or_iff_left hp.ne', rmsR_eq_zero, subArr_zero h]

theorem minusEye_ne {gs : List (DMat ℝ)} {d : ℕ} (hd : 0 < d) (hgs : gs ≠ []) (hsq : ∀ g ∈ gs, g.IsSq d) : minusEye gs ≠ [] := by
  cases gs with
  | nil => exact absurd rfl hgs
  | cons g gs =>
    intro e
    have := congrArg length e
    have hq := hsq g (by simp)
    simp [minusEye, hq.1, hq.2] at this
    omega

theorem flat_inj {A B : DMat ℝ} (hr : A.rows = B.rows) (hc : A.cols = B.cols) : A.flat = B.flat ↔ A = B := by
  constructor
  · intro h
    refine DMat.ext hr hc fun i j hi hj => ?_
    rw [← DMat.getD_flat A hi hj, ← DMat.getD_flat B (hr ▸ hi) (hc ▸ hj), h, hc]
  · rintro rfl; rfl

theorem flatMap_inj {α : Type} {l : List α} {f g : α → List ℝ} (h : ∀ x ∈ l, (f x).length = (g x).length) :
    l.flatMap f = l.flatMap g ↔ ∀ x ∈ l, f x = g x := by
  induction l with
  | nil => simp
  | cons a l ih =>
    rw [flatMap_cons, flatMap_cons, forall_mem_cons]
    constructor
    · intro e
      obtain ⟨e1, e2⟩ := append_inj e (h a (by simp))
      exact ⟨e1, (ih fun x hx => h x (by simp [hx])).1 e2⟩
    · rintro ⟨e1, e2⟩
      rw [e1, (ih fun x hx => h x (by simp [hx])).2 e2]

/-- The `k`-th of the `r` matrices in an array `W` of shape `(nout,nin,r)` or `(nout*nin,r)`. -/
def matrixAt (nout nin r : ℕ) (W : List ℝ) (k : ℕ) : DMat ℝ := DMat.of nout nin fun i j => W.getD ((i * nin + j) * r + k) 0

theorem asMatrices_eq {nout nin r : ℕ} {W : List ℝ} (ho : 0 < nout) (hi : 0 < nin) (hW : W.length = nout * nin * r) :
    asMatrices nout nin W = .ok ((List.range r).map (matrixAt nout nin r W)) := by
  have hp : 0 < nout * nin := Nat.mul_pos ho hi
  unfold asMatrices
  rw [hW, Nat.mul_mod_right, Nat.mul_div_cancel_left _ hp]
  rw [if_neg (by omega)]
  rfl

/-- **C94, `equivariance_error`.** For a matrix or a basis `W` of matrices it is a number between 0 and 1, and it is 0 exactly when
every matrix in `W` intertwines the two representations on the sampled elements. -/
theorem C94_equivariance_error {nout nin r d : ℕ} (ho : 0 < nout) (hi : 0 < nin) (hr : 0 < r) (hd : 0 < d) {W : List ℝ} (hW : W.length = nout * nin * r)
    {rin rout : DMat ℝ → DMat ℝ} {gs : List (DMat ℝ)} (hgs : gs ≠ []) (hsq : ∀ g ∈ gs, g.IsSq d) (hin : ∀ g ∈ gs, (rin g).IsSq nin)
    (hout : ∀ g ∈ gs, (rout g).IsSq nout) :
    ∃ e, equivarianceError W nin nout rin rout gs = .ok (some e) ∧ 0 ≤ e ∧ e ≤ 1 ∧
      (e = 0 ↔ ∀ g ∈ gs, ∀ k < r, (matrixAt nout nin r W k).mul (rin g) = (rout g).mul (matrixAt nout nin r W k)) := by
  obtain ⟨a, ha⟩ : ∃ a, a = gs.flatMap fun g => ((List.range r).map (matrixAt nout nin r W)).flatMap fun M => (M.mul (rin g)).flat := ⟨_, rfl⟩
  obtain ⟨b, hb⟩ : ∃ b, b = gs.flatMap fun g => ((List.range r).map (matrixAt nout nin r W)).flatMap fun M => ((rout g).mul M).flat := ⟨_, rfl⟩
  have l1 : ∀ g ∈ gs, ∀ k, ((matrixAt nout nin r W k).mul (rin g)).flat.length = nout * nin := by
    intro g hg k
    rw [DMat.length_flat]
    show nout * (rin g).cols = _
    rw [(hin g hg).2]
  have l2 : ∀ g ∈ gs, ∀ k, ((rout g).mul (matrixAt nout nin r W k)).flat.length = nout * nin := by
    intro g hg k
    rw [DMat.length_flat]
    show (rout g).rows * nin = _
    rw [(hout g hg).1]
  have l3 : ∀ g ∈ gs, (((List.range r).map (matrixAt nout nin r W)).flatMap fun M => (M.mul (rin g)).flat).length =
      (((List.range r).map (matrixAt nout nin r W)).flatMap fun M => ((rout g).mul M).flat).length := by
    intro g hg
    rw [length_flatMap, length_flatMap, map_map, map_map]
    congr 1
    exact map_congr_left fun k _ => (l1 g hg k).trans (l2 g hg k).symm
  have hab : a.length = b.length := by
    rw [ha, hb, length_flatMap, length_flatMap]
    congr 1
    exact map_congr_left fun g hg => l3 g hg
  have hne : a ≠ [] := by
    rw [ha]
    obtain ⟨g, hg⟩ := exists_mem_of_ne_nil gs hgs
    intro e
    have e1 := flatMap_eq_nil_iff.1 e g hg
    have e2 := flatMap_eq_nil_iff.1 e1 (matrixAt nout nin r W 0) (mem_map.2 ⟨0, mem_range.2 hr, rfl⟩)
    have := l1 g hg 0
    rw [e2] at this
    have hp : 0 < nout * nin := Nat.mul_pos ho hi
    simp at this
    omega
  obtain ⟨e, h1, h2, h3, h4⟩ := C94_range hab hne (minusEye_ne hd hgs hsq)
  refine ⟨e, ?_, h2, h3, h4.trans ?_⟩
  · unfold equivarianceError
    rw [asMatrices_eq ho hi hW]
    show Except.ok (scaleAdjustedRelError (gs.flatMap fun g => ((List.range r).map (matrixAt nout nin r W)).flatMap fun M => (M.mul (rin g)).flat)
      (gs.flatMap fun g => ((List.range r).map (matrixAt nout nin r W)).flatMap fun M => ((rout g).mul M).flat) gs) = _
    rw [← ha, ← hb, h1]
  · rw [ha, hb, flatMap_inj l3]
    refine forall₂_congr fun g hg => ?_
    rw [flatMap_inj (by
      intro M hM
      obtain ⟨k, -, rfl⟩ := mem_map.1 hM
      exact (l1 g hg k).trans (l2 g hg k).symm)]
    constructor
    · intro h k hk
      refine (flat_inj ?_ ?_).1 (h _ (mem_map.2 ⟨k, mem_range.2 hk, rfl⟩))
      · exact (hout g hg).1.symm
      · exact (hin g hg).2
    · intro h M hM
      obtain ⟨k, hk, rfl⟩ := mem_map.1 hM
      rw [h k (mem_range.1 hk)]

/-- The error of a basis without columns is `nan`. -/
theorem C94_empty_basis {nout nin : ℕ} (ho : 0 < nout) (hi : 0 < nin) (rin rout : DMat ℝ → DMat ℝ) (gs : List (DMat ℝ)) :
    equivarianceError [] nin nout rin rout gs = .ok none := by
  unfold equivarianceError
  rw [asMatrices_eq (r := 0) ho hi rfl]
  show Except.ok (scaleAdjustedRelError (gs.flatMap fun g => []) (gs.flatMap fun g => []) gs) = _
  have : (gs.flatMap fun _ => ([] : List ℝ)) = [] := by simp
  rw [this, scaleAdjustedRelError, show subArr [] [] = [] from rfl, rms_nil]
  rfl

/-- Samples on which both representations are trivial say nothing: the error is 0 for every matrix. -/
theorem C94_trivial_samples {nout nin r d : ℕ} (ho : 0 < nout) (hi : 0 < nin) (hr : 0 < r) (hd : 0 < d) {W : List ℝ} (hW : W.length = nout * nin * r)
    {rin rout : DMat ℝ → DMat ℝ} {gs : List (DMat ℝ)} (hgs : gs ≠ []) (hsq : ∀ g ∈ gs, g.IsSq d) (hin : ∀ g ∈ gs, rin g = DMat.one nin)
    (hout : ∀ g ∈ gs, rout g = DMat.one nout) : equivarianceError W nin nout rin rout gs = .ok (some 0) := by
  obtain ⟨e, h1, -, -, h4⟩ := C94_equivariance_error (rin := rin) (rout := rout) ho hi hr hd hW hgs hsq (fun g hg => by rw [hin g hg]; exact ⟨rfl, rfl⟩)
    (fun g hg => by rw [hout g hg]; exact ⟨rfl, rfl⟩)
  rw [h1, h4.2 fun g hg k _ => ?_]
  rw [hin g hg, hout g hg]
  exact (DMat.mul_one' (matrixAt nout nin r W k) rfl).trans (DMat.one_mul' (matrixAt nout nin r W k) rfl).symm

theorem flat_scale {M N : DMat ℝ} {c : ℝ} (hr : N.rows = M.rows) (hc : N.cols = M.cols) (h : ∀ i j, i < M.rows → j < M.cols → N.e i j = c * M.e i j) :
    N.flat = M.flat.map fun x => c * x := by
  unfold DMat.flat
  rw [hr, hc, map_flatMap]
  refine flatMap_congr fun i hi => ?_
  rw [map_map]
  exact map_congr_left fun j hj => h i j (mem_range.1 hi) (mem_range.1 hj)

theorem matrixAt_scale {nout nin r : ℕ} (W : List ℝ) (c : ℝ) (k i j : ℕ) :
    (matrixAt nout nin r (W.map fun x => c * x) k).e i j = c * (matrixAt nout nin r W k).e i j := by
  unfold matrixAt DMat.of
  simp only
  split_ifs with h
  · rw [show (0 : ℝ) = c * 0 from (mul_zero c).symm, getD_map, mul_zero]
  · rw [mul_zero]

theorem matrixAt_mul_scale {nout nin r : ℕ} (W : List ℝ) (c : ℝ) (k : ℕ) (A : DMat ℝ) {i j : ℕ} (hi : i < nout) (hj : j < A.cols) :
    ((matrixAt nout nin r (W.map fun x => c * x) k).mul A).e i j = c * ((matrixAt nout nin r W k).mul A).e i j := by
  rw [DMat.mul_e (A := matrixAt nout nin r (W.map fun x => c * x) k) hi hj, DMat.mul_e (A := matrixAt nout nin r W k) hi hj, Finset.mul_sum]
  refine Finset.sum_congr rfl fun l _ => ?_
  rw [matrixAt_scale, mul_assoc]

theorem mul_matrixAt_scale {nout nin r : ℕ} (W : List ℝ) (c : ℝ) (k : ℕ) (A : DMat ℝ) {i j : ℕ} (hi : i < A.rows) (hj : j < nin) :
    (A.mul (matrixAt nout nin r (W.map fun x => c * x) k)).e i j = c * (A.mul (matrixAt nout nin r W k)).e i j := by
  rw [DMat.mul_e (B := matrixAt nout nin r (W.map fun x => c * x) k) hi hj, DMat.mul_e (B := matrixAt nout nin r W k) hi hj, Finset.mul_sum]
  refine Finset.sum_congr rfl fun l _ => ?_
  rw [matrixAt_scale]
  ring

theorem rmsR_scale {c : ℝ} (hc : 0 ≤ c) (a : List ℝ) : rmsR (a.map fun x => c * x) = c * rmsR a := by
  unfold rmsR
  rw [map_map, length_map, show (a.map ((fun x : ℝ => x ^ 2) ∘ fun x => c * x)) = (a.map fun x => x ^ 2).map fun x => c ^ 2 * x from by
    rw [map_map]; exact map_congr_left fun x _ => by simp only [Function.comp]; ring, List.sum_map_mul_left, map_id'', mul_div_assoc,
    Real.sqrt_mul (sq_nonneg c), Real.sqrt_sq hc] <;> simp

theorem subArr_scale (c : ℝ) (a b : List ℝ) : subArr (a.map fun x => c * x) (b.map fun x => c * x) = (subArr a b).map fun x => c * x := by
  unfold subArr
  rw [zipWith_map, map_zipWith]
  congr 1
  funext x y
  ring

/-- The error is not relative for small weights: whatever the matrix, a multiple of it has an error as small as desired (and intertwines the
representations only if the matrix does). -/
theorem C94_small_weights {nout nin r d : ℕ} (ho : 0 < nout) (hi : 0 < nin) (hr : 0 < r) (hd : 0 < d) {W : List ℝ} (hW : W.length = nout * nin * r)
    {rin rout : DMat ℝ → DMat ℝ} {gs : List (DMat ℝ)} (hgs : gs ≠ []) (hsq : ∀ g ∈ gs, g.IsSq d) (hin : ∀ g ∈ gs, (rin g).IsSq nin)
    (hout : ∀ g ∈ gs, (rout g).IsSq nout) {ε : ℝ} (hε : 0 < ε) :
    ∃ c : ℝ, 0 < c ∧ ∃ e, equivarianceError (W.map fun x => c * x) nin nout rin rout gs = .ok (some e) ∧ e ≤ ε ∧
      (e = 0 ↔ ∀ g ∈ gs, ∀ k < r, (matrixAt nout nin r W k).mul (rin g) = (rout g).mul (matrixAt nout nin r W k)) := by
  obtain ⟨a, ha⟩ : ∃ a, a = gs.flatMap fun g => ((List.range r).map (matrixAt nout nin r W)).flatMap fun M => (M.mul (rin g)).flat := ⟨_, rfl⟩
  obtain ⟨b, hb⟩ : ∃ b, b = gs.flatMap fun g => ((List.range r).map (matrixAt nout nin r W)).flatMap fun M => ((rout g).mul M).flat := ⟨_, rfl⟩
  obtain ⟨c, hc⟩ : ∃ c : ℝ, c = ε / (10 ^ 7 * (rmsR (subArr a b) + 1)) := ⟨_, rfl⟩
  have hR := rmsR_nonneg (subArr a b)
  have hc0 : 0 < c := by rw [hc]; positivity
  have hWc : (W.map fun x => c * x).length = nout * nin * r := by rw [length_map, hW]
  obtain ⟨e, h1, h2, h3, h4⟩ := C94_equivariance_error ho hi hr hd hWc hgs hsq hin hout
  refine ⟨c, hc0, e, h1, ?_, h4.trans ?_⟩
  · have ha' : (gs.flatMap fun g => ((List.range r).map (matrixAt nout nin r (W.map fun x => c * x))).flatMap fun M => (M.mul (rin g)).flat) =
        a.map fun x => c * x := by
      rw [ha, map_flatMap]
      refine flatMap_congr fun g hg => ?_
      rw [map_flatMap, flatMap_map, flatMap_map]
      refine flatMap_congr fun k _ => ?_
      exact flat_scale rfl rfl fun i j hi hj => matrixAt_mul_scale W c k _ hi hj
    have hb' : (gs.flatMap fun g => ((List.range r).map (matrixAt nout nin r (W.map fun x => c * x))).flatMap fun M => ((rout g).mul M).flat) =
        b.map fun x => c * x := by
      rw [hb, map_flatMap]
      refine flatMap_congr fun g hg => ?_
      rw [map_flatMap, flatMap_map, flatMap_map]
      refine flatMap_congr fun k _ => ?_
      exact flat_scale rfl rfl fun i j hi hj => mul_matrixAt_scale W c k _ hi hj
    unfold equivarianceError at h1
    rw [asMatrices_eq ho hi hWc] at h1
    have h1 : Except.ok (scaleAdjustedRelError (gs.flatMap fun g => ((List.range r).map (matrixAt nout nin r (W.map fun x => c * x))).flatMap fun M => (M.mul (rin g)).flat)
      (gs.flatMap fun g => ((List.range r).map (matrixAt nout nin r (W.map fun x => c * x))).flatMap fun M => ((rout g).mul M).flat) gs) = Except.ok (some e) := h1
    rw [ha', hb'] at h1
    have h1 := Except.ok.inj h1
    unfold scaleAdjustedRelError at h1
    rw [subArr_scale] at h1
    cases x1 : rms ((subArr a b).map fun x => c * x) with
    | none => rw [x1] at h1; cases h1
    | some y1 =>
    cases x2 : rms (a.map fun x => c * x) with
    | none => rw [x1, x2] at h1; cases h1
    | some y2 =>
    cases x3 : rms (b.map fun x => c * x) with
    | none => rw [x1, x2, x3] at h1; cases h1
    | some y3 =>
    cases x4 : rms (minusEye gs) with
    | none => rw [x1, x2, x3, x4] at h1; cases h1
    | some y4 =>
    rw [x1, x2, x3, x4] at h1
    have h1 : fdiv y1 (max (max (y2 + y3) y4) (1 / 10 ^ 7)) = some e := h1
    have hp : 1 / 10 ^ 7 ≤ max (max (y2 + y3) y4) (1 / 10 ^ 7 : ℝ) := le_max_right _ _
    have hp0 : 0 < max (max (y2 + y3) y4) (1 / 10 ^ 7 : ℝ) := lt_of_lt_of_le (by norm_num) hp
    rw [fdiv, if_neg hp0.ne'] at h1
    have h1 := Option.some.inj h1
    have hne : ((subArr a b).map fun x => c * x) ≠ [] := by
      intro h; rw [h, rms_nil] at x1; cases x1
    rw [rms_some hne, rmsR_scale hc0.le] at x1
    have y1e := Option.some.inj x1
    rw [← h1, ← y1e, div_le_iff₀ hp0]
    calc c * rmsR (subArr a b) ≤ c * (rmsR (subArr a b) + 1) := mul_le_mul_of_nonneg_left (by linarith) hc0.le
      _ = ε * (1 / 10 ^ 7) := by rw [hc]; field_simp
      _ ≤ _ := mul_le_mul_of_nonneg_left hp hε.le
  · refine forall₂_congr fun g hg => forall₂_congr fun k _ => ?_
    constructor
    · intro h
      refine DMat.ext (hout g hg).1.symm (hin g hg).2 fun i j hi hj => ?_
      have : ((matrixAt nout nin r (W.map fun x => c * x) k).mul (rin g)).e i j = ((rout g).mul (matrixAt nout nin r (W.map fun x => c * x) k)).e i j := by rw [h]
      rw [matrixAt_mul_scale (nout := nout) (nin := nin) (r := r) W c k (rin g) hi hj, mul_matrixAt_scale W c k _ (by rw [(hout g hg).1]; exact hi) (by rw [← (hin g hg).2]; exact hj)] at this
      exact mul_left_cancel₀ hc0.ne' this
    · intro h
      refine DMat.ext (hout g hg).1.symm (hin g hg).2 fun i j hi hj => ?_
      rw [matrixAt_mul_scale (nout := nout) (nin := nin) (r := r) W c k (rin g) hi hj, mul_matrixAt_scale W c k _ (by rw [(hout g hg).1]; exact hi) (by rw [← (hin g hg).2]; exact hj), h]

/-! ### Bases of equivariant maps -/

section
variable {W : World} {g : Gid} {N : ℕ} {custom : ∀ k g, AtomRep ℝ (W.d g) (W.usize k g)}
  {lie disc : ∀ g, List (Matrix (Fin (W.d g)) (Fin (W.d g)) ℝ)} {solve : ℕ → LinOp ℝ → Py (DMat ℝ)}

/-- `rep.rho_dense(g)` of the representation written `e`, for `g` given as an array. -/
noncomputable def rhoDense (W : World) (custom : ∀ k g, AtomRep ℝ (W.d g) (W.usize k g)) (g : Gid) (e : Expr) (h : DMat ℝ) : DMat ℝ :=
  (e.den g (Interp.elem W custom g (Matrix.of fun i j => h.e i j))).1

/-- **C94, bases.** The library's own bases pass: `equivariance_error((rep_in>>rep_out).equivariant_basis(),rep_in,rep_out,G)` is 0 for all
elements generated by the exponentials of the Lie algebra and the discrete generators (and `nan` if there are no equivariant maps,
`C94_empty_basis`). -/
theorem C94_basis (hW : W.SingleOK g N) {ein eout : Expr} (h : (ein.rshift eout).OK W g) (hN : (ein.rshift eout).bound W g ≤ N)
    (ok : GroupsOK W custom lie disc) (hsol : SolverOK W (gensOf W (stdAtoms W custom) lie disc) solve)
    (htot : SolverRuns W (gensOf W (stdAtoms W custom) lie disc) solve) (calls : List SolveCall) (hd : 0 < W.d g) :
    ∃ r Q, (ein.rshift eout).eval W g = .ok r ∧
      (r.equivariantBasis W (gensOf W (stdAtoms W custom) lie disc) solve (session W (gensOf W (stdAtoms W custom) lie disc) solve calls freshSt)).1 = .ok Q ∧
      ∀ hs : List (Matrix (Fin (W.d g)) (Fin (W.d g)) ℝ), hs ≠ [] → (∀ h ∈ hs, Generated (lie g) (disc g) h) →
        0 < ein.dim W g → 0 < eout.dim W g → 0 < Q.sem.cols →
        equivarianceError Q.sem.flat (ein.dim W g) (eout.dim W g) (rhoDense W custom g ein) (rhoDense W custom g eout) (hs.map DMat.ofMatrix) =
          .ok (some 0) := by
  obtain ⟨r, hr, hwf, hk, hsz, hmat⟩ := (ein.rshift eout).eval_good hW h hN
  obtain ⟨h1, h2⟩ := C21_equivariant_basis gensOf_sized hsol hwf (Rep.single_onePerGroup hwf hk) calls
  obtain ⟨Q, hQ⟩ := h2 htot
  have ho := h1 Q hQ
  rw [hsz] at ho
  refine ⟨r, Q, hr, hQ, fun hs hne hgen hi hout hc => ?_⟩
  have ee : ∀ M : Matrix (Fin (W.d g)) (Fin (W.d g)) ℝ, (Matrix.of fun i j : Fin (W.d g) => (DMat.ofMatrix M).e i j) = M := by
    intro M
    ext i j
    rw [Matrix.of_apply, DMat.ofMatrix_e]
  have hrows : Q.sem.rows = eout.dim W g * ein.dim W g := ho.rows
  obtain ⟨e, k1, -, -, k4⟩ := C94_equivariance_error (nout := eout.dim W g) (nin := ein.dim W g) (r := Q.sem.cols) (d := W.d g) (W := Q.sem.flat)
    (rin := rhoDense W custom g ein) (rout := rhoDense W custom g eout) (gs := hs.map DMat.ofMatrix) hout hi hc hd
    (by rw [DMat.length_flat, hrows]) (by simpa using hne) (by simp only [mem_map]; rintro x ⟨M, -, rfl⟩; exact ⟨rfl, rfl⟩)
    (by
      simp only [mem_map]
      rintro x ⟨M, hM, rfl⟩
      rw [rhoDense, ee]
      exact (ein.den_pair (elem_dual (g := g) ok (hgen M hM))).sq1)
    (by
      simp only [mem_map]
      rintro x ⟨M, hM, rfl⟩
      rw [rhoDense, ee]
      exact (eout.den_pair (elem_dual (g := g) ok (hgen M hM))).sq1)
  rw [k1, k4.2 ?_]
  intro x hx k hk'
  obtain ⟨M, hM, rfl⟩ := mem_map.1 hx
  rw [rhoDense, rhoDense, ee]
  have hI := elem_dual (g := g) ok (hgen M hM)
  have pi := ein.den_pair (W := W) (g := g) hI
  have po := eout.den_pair (W := W) (g := g) hI
  obtain ⟨A, hA⟩ : ∃ A, A = matrixAt (eout.dim W g) (ein.dim W g) Q.sem.cols Q.sem.flat k := ⟨_, rfl⟩
  have hAr : A.rows = eout.dim W g := by rw [hA]; rfl
  have hAc : A.cols = ein.dim W g := by rw [hA]; rfl
  -- column `k` of the basis is the flattened matrix
  have hcol : Q.sem.mulVec ((List.range Q.sem.cols).map fun j => if j = k then 1 else 0) = A.flat := by
    refine DMat.vec_ext (by rw [DMat.length_mulVec, DMat.length_flat, hAr, hAc, hrows]) fun i hi' => ?_
    rw [DMat.length_mulVec] at hi'
    rw [DMat.getD_mulVec hi']
    have e1 : ∀ j ∈ Finset.range Q.sem.cols, Q.sem.e i j * ((List.range Q.sem.cols).map fun j => if j = k then (1 : ℝ) else 0).getD j 0 =
        if j = k then Q.sem.e i j else 0 := by
      intro j hj
      have hj := Finset.mem_range.1 hj
      rw [getD_eq_getElem _ _ (by simpa using hj)]
      simp
    rw [Finset.sum_congr rfl e1, Finset.sum_ite_eq' _ _ (fun j => Q.sem.e i j), if_pos (Finset.mem_range.2 hk')]
    rw [hrows] at hi'
    have q1 : i / ein.dim W g < A.rows := by rw [hAr]; exact Nat.div_lt_of_lt_mul (by rwa [Nat.mul_comm] at hi')
    have q2 : i % ein.dim W g < A.cols := by rw [hAc]; exact Nat.mod_lt _ hi
    have q3 : i / ein.dim W g * A.cols + i % ein.dim W g = i := by rw [hAc, Nat.mul_comm]; exact Nat.div_add_mod _ _
    have := DMat.getD_flat A q1 q2
    rw [q3] at this
    rw [this, hA, matrixAt, DMat.of_e (lt_of_lt_of_eq q1 hAr) (lt_of_lt_of_eq q2 hAc)]
    rw [Nat.mul_comm (i / ein.dim W g), Nat.div_add_mod, DMat.getD_flat Q.sem (by rw [hrows]; exact hi') hk']
  have hfix := (ho.span A.flat (by rw [DMat.length_flat, hAr, hAc]; rfl)).2 ⟨_, by simp, hcol⟩
  have hm := elem_fixes ok (hgen M hM) r hwf A.flat (by rw [DMat.length_flat, hAr, hAc, hsz]; rfl) hfix
  rw [hmat ℝ _ hI] at hm
  have hm : (DMat.kron (eout.den g (Interp.elem W custom g M)).1 (ein.den g (Interp.elem W custom g M)).2).mulVec A.flat = A.flat := hm
  rw [DMat.kron_mulVec_flat _ _ _ (by rw [po.sq1.2, hAr]) (by rw [pi.sq2.2, hAc])] at hm
  have hm := (flat_inj (by show (eout.den g _).1.rows = _; rw [po.sq1.1, hAr]) (by show (ein.den g _).2.rows = _; rw [pi.sq2.1, hAc])).1 hm
  rw [← hA]
  conv_lhs => rw [← hm]
  rw [DMat.mul_assoc' _ _ _ (by show A.cols = (ein.den g _).2.cols; rw [hAc, pi.sq2.2]), pi.inv]
  exact DMat.mul_one' _ hAc

end

/-! ## The measures of the trainers -/

/-- **C94, `rel_err`.** It is `nan` when both arrays vanish, and otherwise a number between 0 and 1 that is 0 exactly when they agree. -/
theorem C94_rel_err {a b : List ℝ} (h : a.length = b.length) (h1 : a ≠ []) :
    (relErr a b = none ↔ (∀ x ∈ a, x = 0) ∧ ∀ x ∈ b, x = 0) ∧ ∀ e, relErr a b = some e → 0 ≤ e ∧ e ≤ 1 ∧ (e = 0 ↔ a = b) := by
  have h2 : b ≠ [] := by rintro rfl; simp at h; exact h1 h
  have hs : subArr a b ≠ [] := by
    intro e
    have := congrArg length e
    simp [subArr, h] at this
    exact h2 this
  have e0 : relErr a b = fdiv (rmsR (subArr a b)) (rmsR a + rmsR b) := by
    unfold relErr
    rw [rms_some hs, rms_some h1, rms_some h2]
    rfl
  have hz : rmsR a + rmsR b = 0 ↔ (∀ x ∈ a, x = 0) ∧ ∀ x ∈ b, x = 0 := by
    rw [add_eq_zero_iff_of_nonneg (rmsR_nonneg a) (rmsR_nonneg b), rmsR_eq_zero, rmsR_eq_zero]
  rw [e0, fdiv, ← hz]
  split_ifs with hc
  · simp [hc]
  · have hp : 0 < rmsR a + rmsR b := lt_of_le_of_ne (add_nonneg (rmsR_nonneg a) (rmsR_nonneg b)) (Ne.symm hc)
    refine ⟨by simp [hc], fun e he => ?_⟩
    rw [← Option.some.inj he]
    exact ⟨div_nonneg (rmsR_nonneg _) hp.le, (div_le_one hp).2 (rmsR_sub_le h), by
      rw [div_eq_zero_iff, or_iff_left hc, rmsR_eq_zero, subArr_zero h]⟩

theorem meanAbs_some {a : List ℝ} (h : a ≠ []) : ∃ m, meanOf (a.map abs) = some m ∧ 0 ≤ m ∧ (m = 0 ↔ ∀ x ∈ a, x = 0) := by
  have hl : (((a.map abs).length : ℕ) : ℝ) ≠ 0 := by
    rw [length_map]
    exact_mod_cast fun e => h (length_eq_zero_iff.1 e)
  have hn : ∀ a : List ℝ, 0 ≤ (a.map abs).sum := by
    intro a
    induction a with
    | nil => simp
    | cons x a ih => rw [map_cons, sum_cons]; exact add_nonneg (abs_nonneg x) ih
  have hz : ∀ a : List ℝ, (a.map abs).sum = 0 ↔ ∀ x ∈ a, x = 0 := by
    intro a
    induction a with
    | nil => simp
    | cons x a ih => rw [map_cons, sum_cons, add_eq_zero_iff_of_nonneg (abs_nonneg x) (hn a), ih]; simp
  refine ⟨(a.map abs).sum / ((a.map abs).length : ℕ), by unfold meanOf fdiv; rw [if_neg hl], div_nonneg (hn a) (Nat.cast_nonneg _), ?_⟩
  rw [div_eq_zero_iff, or_iff_left hl, hz]

/-- **C94, `scale_adjusted_rel_err`.** It is `nan` exactly when both arrays vanish and all samples are the identity; otherwise it is
a number between 0 and 1 that is 0 exactly when the arrays agree. -/
theorem C94_trainer {a b : List ℝ} (h : a.length = b.length) (h1 : a ≠ []) {g : List (DMat ℝ)} (hg : minusEye g ≠ []) :
    (scaleAdjustedRelErr a b g = none ↔ (∀ x ∈ a, x = 0) ∧ (∀ x ∈ b, x = 0) ∧ ∀ x ∈ minusEye g, x = 0) ∧
      ∀ e, scaleAdjustedRelErr a b g = some e → 0 ≤ e ∧ e ≤ 1 ∧ (e = 0 ↔ a = b) := by
  have h2 : b ≠ [] := by rintro rfl; simp at h; exact h1 h
  have hs : subArr a b ≠ [] := by
    intro e
    have := congrArg length e
    simp [subArr, h] at this
    exact h2 this
  obtain ⟨m, m1, m2, m3⟩ := meanAbs_some hg
  have e0 : scaleAdjustedRelErr a b g = fdiv (rmsR (subArr a b)) (rmsR a + rmsR b + m) := by
    unfold scaleAdjustedRelErr
    rw [rms_some hs, rms_some h1, rms_some h2, m1]
    rfl
  have hab := add_nonneg (rmsR_nonneg a) (rmsR_nonneg b)
  have hz : rmsR a + rmsR b + m = 0 ↔ (∀ x ∈ a, x = 0) ∧ (∀ x ∈ b, x = 0) ∧ ∀ x ∈ minusEye g, x = 0 := by
    rw [add_eq_zero_iff_of_nonneg hab m2, add_eq_zero_iff_of_nonneg (rmsR_nonneg a) (rmsR_nonneg b), rmsR_eq_zero, rmsR_eq_zero, m3, and_assoc]
  rw [e0, fdiv, ← hz]
  split_ifs with hc
  · simp [hc]
  · have hp : 0 < rmsR a + rmsR b + m := lt_of_le_of_ne (add_nonneg hab m2) (Ne.symm hc)
    refine ⟨by simp [hc], fun e he => ?_⟩
    rw [← Option.some.inj he]
    exact ⟨div_nonneg (rmsR_nonneg _) hp.le, (div_le_one hp).2 ((rmsR_sub_le h).trans (by linarith)), by
      rw [div_eq_zero_iff, or_iff_left hc, rmsR_eq_zero, subArr_zero h]⟩

section
variable {W : World} {g : Gid} {N : ℕ} {custom : ∀ k g, AtomRep ℝ (W.d g) (W.usize k g)}
  {lie disc : ∀ g, List (Matrix (Fin (W.d g)) (Fin (W.d g)) ℝ)} {solve : ℕ → LinOp ℝ → Py (DMat ℝ)} {rng : Rng} {σ σ' : NetSt ℝ}
  {ein eout : Expr} {rin rout : Rep} {fuel b L : ℕ} {ch : Ch} {ws : List ℕ} {E : Emlp ℝ}

/-- **C94, networks.** `equivariance_err`, which the trainers log, is 0 for every EMLP that returns, every batch and all samples of the
group (or `nan`, when the predictions vanish and all samples are the identity): a nonzero value is the effect of rounding alone. -/
theorem C94_network (hW : W.SingleOK g N) (hd : 2 ≤ W.d g) (hdN : W.d g ≤ N) (ok : GroupsOK W custom lie disc)
    (hsol : SolverOK W (gensOf W (stdAtoms W custom) lie disc) solve) (hσ : NetReach W g (gensOf W (stdAtoms W custom) lie disc) solve σ)
    (hrng : RngOK rng) (hin : RepArg W g N ein rin) (hout : RepArg W g N eout rout) (hch : ch.Widths W g N b L ws)
    (hbi : ein.dim W g ≤ b) (hbo : eout.dim W g ≤ b) (hbf : b < fuel) (hN : (2 * b) * (2 * b) ≤ N) (F : FrontEnd)
    (hE : F.emlp W (gensOf W (stdAtoms W custom) lie disc) solve rng fuel rin rout g ch L σ = .ok (E, σ'))
    {ps : List (BlockParams ℝ)} {w : DMat ℝ} {β : List ℝ} (hp : E.Shaped ps w β) (c : ℝ) (act : ℝ → ℝ)
    {X : DMat ℝ} (hX : X.cols = ein.dim W g) (hX0 : 0 < X.rows) (ho0 : 0 < eout.dim W g) {hs : List (Matrix (Fin (W.d g)) (Fin (W.d g)) ℝ)}
    (hlen : hs.length = X.rows) (hgen : ∀ h ∈ hs, Generated (lie g) (disc g) h) {o : Option ℝ}
    (herr : equivarianceErr (F.apply W c act E ps w β) (rhoDense W custom g ein) (rhoDense W custom g eout) X (hs.map DMat.ofMatrix) = .ok o) :
    o = some 0 ∨ o = none ∧ ∀ h ∈ hs, h = 1 := by
  have ee : ∀ M : Matrix (Fin (W.d g)) (Fin (W.d g)) ℝ, (Matrix.of fun i j : Fin (W.d g) => (DMat.ofMatrix M).e i j) = M := by
    intro M
    ext i j
    rw [Matrix.of_apply, DMat.ofMatrix_e]
  have hget : ∀ i (hi : i < X.rows), (hs.map DMat.ofMatrix).getD i (DMat.one 0) = DMat.ofMatrix (hs[i]'(by rw [hlen]; exact hi)) := by
    intro i hi
    rw [getD_eq_getElem _ _ (by rw [length_map, hlen]; exact hi), getElem_map]
  have hsq : ∀ (e : Expr) i (hi : i < X.rows), rhoDense W custom g e ((hs.map DMat.ofMatrix).getD i (DMat.one 0)) =
      (e.den g (Interp.elem W custom g (hs[i]'(by rw [hlen]; exact hi)))).1 ∧
      (rhoDense W custom g e ((hs.map DMat.ofMatrix).getD i (DMat.one 0))).IsSq (e.dim W g) := by
    intro e i hi
    rw [hget i hi, rhoDense, ee]
    exact ⟨rfl, (e.den_pair (elem_dual (g := g) ok (hgen _ (getElem_mem _)))).sq1⟩
  obtain ⟨T, hT⟩ : ∃ T : (DMat ℝ → DMat ℝ) → DMat ℝ → DMat ℝ, T = fun ρ Z => DMat.of Z.rows (ρ ((hs.map DMat.ofMatrix).getD 0 (DMat.one 0))).rows fun i j =>
    ((ρ ((hs.map DMat.ofMatrix).getD i (DMat.one 0))).mulVec (Z.row i)).getD j 0 := ⟨_, rfl⟩
  have hTrow : ∀ (e : Expr) (Z : DMat ℝ), Z.rows = X.rows → ∀ i < X.rows,
      (T (rhoDense W custom g e) Z).row i = (rhoDense W custom g e ((hs.map DMat.ofMatrix).getD i (DMat.one 0))).mulVec (Z.row i) := by
    intro e Z hZ i hi
    have hc : (T (rhoDense W custom g e) Z).cols = e.dim W g := by rw [hT]; exact (hsq e 0 hX0).2.1
    refine DMat.vec_ext (by rw [DMat.length_row, DMat.length_mulVec, hc, (hsq e i hi).2.1]) fun j hj => ?_
    rw [DMat.length_row] at hj
    rw [DMat.getD_row, hT]
    exact DMat.of_e (by rw [hZ]; exact hi) (by rw [hT] at hj; exact hj)
  have herr : (do
      let y1 ← F.apply W c act E ps w β (T (rhoDense W custom g ein) X)
      let y ← F.apply W c act E ps w β X
      pure (scaleAdjustedRelErr y1.flat (T (rhoDense W custom g eout) y).flat (hs.map DMat.ofMatrix)) : Py (Option ℝ)) = .ok o := by
    rw [hT]; exact herr
  rcases C42_function hW hd hdN ok hsol hσ hrng hin hout hch hbi hbo hbf hN F hE hp c act with hf | ⟨hf, -⟩
  · obtain ⟨Y, k1, k2, k3, k4⟩ := hf X hX
    obtain ⟨Y', l1, l2, l3, l4⟩ := hf (T (rhoDense W custom g ein) X) (by rw [hT]; exact (hsq ein 0 hX0).2.1)
    rw [l1, k1] at herr
    have herr := Except.ok.inj herr
    have hYX : (T (rhoDense W custom g ein) X).rows = X.rows := by rw [hT]; rfl
    have heq : Y' = T (rhoDense W custom g eout) Y := by
      have hr2 : (T (rhoDense W custom g eout) Y).rows = Y.rows := by rw [hT]; rfl
      have hc2 : (T (rhoDense W custom g eout) Y).cols = eout.dim W g := by rw [hT]; exact (hsq eout 0 hX0).2.1
      refine DMat.ext (by rw [l2, hYX, hr2, k2]) (by rw [l3, hc2]) fun i j hi hj => ?_
      rw [l2, hYX] at hi
      have q1 := l4 i (by rw [hYX]; exact hi)
      rw [hTrow ein X rfl i hi, (hsq ein i hi).1] at q1
      have hE' := hE
      rw [FrontEnd.emlp_eq] at hE'
      rw [C40_equivariant hW hd hdN ok hsol hσ hrng hin hout hch hbi hbo hbf hN hE' hp c act (hgen _ (getElem_mem _)) (by rw [DMat.length_row, hX]) (k4 i hi)] at q1
      have q2 := hTrow eout Y k2 i hi
      rw [(hsq eout i hi).1, Except.ok.inj q1] at q2
      rw [← DMat.getD_row Y' j, ← q2, DMat.getD_row]
    rw [← heq] at herr
    have hne : Y'.flat ≠ [] := by
      intro h
      have := congrArg length h
      rw [DMat.length_flat, l2, hYX, l3] at this
      have := Nat.mul_pos hX0 ho0
      simp at *
      omega
    have hme : minusEye (hs.map DMat.ofMatrix) ≠ [] := by
      refine minusEye_ne (d := W.d g) (by omega) ?_ ?_
      · intro h
        have := congrArg length h
        rw [length_map, hlen] at this
        simp at this
        omega
      · simp only [mem_map]
        rintro x ⟨M, -, rfl⟩
        exact ⟨rfl, rfl⟩
    have ht := (C94_trainer rfl hne hme).2
    rw [← herr]
    cases hv : scaleAdjustedRelErr Y'.flat Y'.flat (hs.map DMat.ofMatrix) with
    | none =>
      refine Or.inr ⟨rfl, fun M hM => ?_⟩
      have h0 := ((C94_trainer rfl hne hme).1.1 hv).2.2
      ext i j
      have : (DMat.ofMatrix M).e i j - (if (i : ℕ) = j then 1 else 0) = 0 := h0 _ (by
        unfold minusEye
        refine mem_flatMap.2 ⟨_, mem_map.2 ⟨M, hM, rfl⟩, mem_flatMap.2 ⟨i, by simpa [DMat.ofMatrix] using i.2, mem_map.2 ⟨j, by simpa [DMat.ofMatrix] using j.2, rfl⟩⟩⟩)
      rw [DMat.ofMatrix_e M i.2 j.2, sub_eq_zero] at this
      rw [this, Matrix.one_apply]
      simp only [Fin.ext_iff]
    | some e => exact Or.inl (by rw [(ht e hv).2.2.2 rfl])
  · obtain ⟨e, he⟩ := hf (T (rhoDense W custom g ein) X)
    rw [he] at herr
    cases herr

end

/-! ## C95: rollout errors -/

/-- The pairs of predicted and true states at the same time of the same rollout. -/
def statePairs (pred gt : List (List (List ℝ))) : List (List ℝ × List ℝ) := (List.zipWith List.zip pred gt).flatten

/-- The relative error as a formula: the root mean square of the difference over the sum of the root mean squares. -/
noncomputable def relErrR (a b : List ℝ) : ℝ := rmsR (List.zipWith (fun x y => x - y) a b) / (rmsR a + rmsR b)

/-- The geometric mean of positive numbers. -/
noncomputable def geoMean (es : List ℝ) : ℝ := es.prod ^ (1 / es.length : ℝ)

theorem relErr_some {a b : List ℝ} (h : a.length = b.length) (h1 : a ≠ []) (hz : ¬ ((∀ x ∈ a, x = 0) ∧ ∀ x ∈ b, x = 0)) :
    relErr a b = some (relErrR a b) := by
  have h2 : b ≠ [] := by rintro rfl; simp at h; exact h1 h
  have hs : subArr a b ≠ [] := by
    intro e
    have := congrArg length e
    simp [subArr, h] at this
    exact h2 this
  unfold relErr
  rw [rms_some hs, rms_some h1, rms_some h2]
  show fdiv (rmsR (subArr a b)) (rmsR a + rmsR b) = _
  rw [fdiv, if_neg]
  · rfl
  · rwa [add_eq_zero_iff_of_nonneg (rmsR_nonneg a) (rmsR_nonneg b), rmsR_eq_zero, rmsR_eq_zero]

theorem mapM_id_some {l : List (Option ℝ)} {es : List ℝ} : l.mapM id = some es ↔ l = es.map some := by
  induction l generalizing es with
  | nil => cases es <;> simp
  | cons a l ih =>
    rw [mapM_cons]
    cases a with
    | none => cases es <;> simp
    | some x =>
      show (do let b ← l.mapM id; pure (x :: b)) = some es ↔ _
      cases h : l.mapM id with
      | none =>
        cases es with
        | nil => simp
        | cons y es =>
          have := (ih (es := es)).2
          rw [h] at this
          simp only [map_cons, cons.injEq]
          constructor
          · intro h; cases h
          · intro h; exact absurd (this h.2) (by simp)
      | some b =>
        rw [ih.1 h]
        cases es with
        | nil => simp
        | cons y es =>
          simp only [map_cons, cons.injEq, Option.some.injEq]
          rw [map_inj_right (fun _ _ h => Option.some.inj h)]
          show some (x :: b) = some (y :: es) ↔ _
          simp

theorem stateErrors_eq (pred gt : List (List (List ℝ))) :
    (List.zipWith (List.zipWith relErr) pred gt).flatten = (statePairs pred gt).map fun p => relErr p.1 p.2 := by
  unfold statePairs
  rw [map_flatten, map_zipWith]
  congr 1
  induction pred generalizing gt with
  | nil => simp
  | cons a pred ih =>
    cases gt with
    | nil => simp
    | cons b gt =>
      rw [zipWith_cons_cons, zipWith_cons_cons, ih]
      congr 1
      rw [zip, map_zipWith]

theorem exp_mean_log {es : List ℝ} (hne : es ≠ []) (hp : ∀ e ∈ es, 0 < e) : ∃ m, meanOf (es.map Real.log) = some m ∧ Real.exp m = geoMean es := by
  have hl : (((es.map Real.log).length : ℕ) : ℝ) ≠ 0 := by
    rw [length_map]
    exact_mod_cast fun e => hne (length_eq_zero_iff.1 e)
  refine ⟨_, by unfold meanOf fdiv; rw [if_neg hl], ?_⟩
  have hs : ∀ es : List ℝ, (∀ e ∈ es, 0 < e) → (es.map Real.log).sum = Real.log es.prod ∧ 0 < es.prod := by
    intro es
    induction es with
    | nil => simp
    | cons x es ih =>
      intro h
      obtain ⟨i1, i2⟩ := ih fun e he => h e (mem_cons_of_mem _ he)
      have hx := h x (mem_cons_self ..)
      rw [map_cons, sum_cons, prod_cons, i1, Real.log_mul hx.ne' i2.ne']
      exact ⟨rfl, mul_pos hx i2⟩
  obtain ⟨h1, h2⟩ := hs es hp
  rw [h1, length_map, geoMean, Real.rpow_def_of_pos h2, mul_one_div]

theorem prod_bounds {a : ℝ} (ha : 0 < a) {es : List ℝ} (h : ∀ e ∈ es, a ≤ e) : a ^ es.length ≤ es.prod ∧ (es.prod = a ^ es.length ↔ ∀ e ∈ es, e = a) := by
  induction es with
  | nil => simp
  | cons x es ih =>
    obtain ⟨i1, i2⟩ := ih fun e he => h e (mem_cons_of_mem _ he)
    have hx := h x (mem_cons_self ..)
    have hpow : 0 < a ^ es.length := pow_pos ha _
    rw [length_cons, prod_cons, pow_succ']
    refine ⟨mul_le_mul hx i1 hpow.le (ha.le.trans hx), fun he => ?_, fun he => ?_⟩
    · have hxa : x = a := by
        refine le_antisymm ?_ hx
        by_contra hlt
        push Not at hlt
        have : a * a ^ es.length < x * es.prod := mul_lt_mul hlt i1 hpow (ha.le.trans hx)
        exact this.ne' he
      intro e hm
      rcases mem_cons.1 hm with rfl | hm
      · exact hxa
      · refine i2.1 ?_ e hm
        rw [hxa] at he
        exact mul_left_cancel₀ ha.ne' he
    · rw [he x (mem_cons_self ..), i2.2 fun e hm => he e (mem_cons_of_mem _ hm)]

theorem prod_le_one' {es : List ℝ} (h0 : ∀ e ∈ es, 0 < e) (h : ∀ e ∈ es, e ≤ 1) : 0 < es.prod ∧ es.prod ≤ 1 := by
  induction es with
  | nil => simp
  | cons x es ih =>
    obtain ⟨i1, i2⟩ := ih (fun e he => h0 e (mem_cons_of_mem _ he)) fun e he => h e (mem_cons_of_mem _ he)
    rw [prod_cons]
    have hx := h0 x (mem_cons_self ..)
    exact ⟨mul_pos hx i1, mul_le_one₀ (h x (mem_cons_self ..)) i1.le i2⟩

/-- A geometric mean lies between bounds of the numbers. -/
theorem geoMean_bounds {a : ℝ} (ha : 0 < a) {es : List ℝ} (hne : es ≠ []) (h : ∀ e ∈ es, a ≤ e) (h1 : ∀ e ∈ es, e ≤ 1) :
    a ≤ geoMean es ∧ geoMean es ≤ 1 ∧ (geoMean es = a ↔ ∀ e ∈ es, e = a) := by
  have hl : (es.length : ℝ) ≠ 0 := by exact_mod_cast fun e => hne (length_eq_zero_iff.1 e)
  have hlp : (0:ℝ) < 1 / es.length := by
    have : (0:ℝ) < es.length := lt_of_le_of_ne (Nat.cast_nonneg _) (Ne.symm hl)
    positivity
  have ea : (a ^ es.length) ^ (1 / es.length : ℝ) = a := by
    rw [← Real.rpow_natCast, ← Real.rpow_mul ha.le, mul_one_div_cancel hl, Real.rpow_one]
  obtain ⟨p1, p2⟩ := prod_bounds ha h
  obtain ⟨p3, p4⟩ := prod_le_one' (fun e he => ha.trans_le (h e he)) h1
  have hpa : 0 < a ^ es.length := pow_pos ha _
  refine ⟨?_, Real.rpow_le_one p3.le p4 hlp.le, ?_⟩
  · calc a = (a ^ es.length) ^ (1 / es.length : ℝ) := ea.symm
      _ ≤ _ := Real.rpow_le_rpow hpa.le p1 hlp.le
  · rw [← p2, geoMean]
    conv_lhs => rhs; rw [← ea]
    constructor
    · intro he
      refine le_antisymm ?_ p1
      by_contra hlt
      push Not at hlt
      exact (Real.rpow_lt_rpow hpa.le hlt hlp).ne' he
    · intro he; rw [he]

/-- **C95.** For rollouts of the same shape the error is `nan` exactly when in some state the prediction and the truth both vanish.
Otherwise the exponential of the logged value is the geometric mean over all states of all rollouts of their relative errors, those below
`1e-7` replaced by `1e-7`.  It lies between `1e-7` and 1, and is `1e-7` exactly when no state has a larger error. -/
theorem C95_rollout {pred gt : List (List (List ℝ))} (hsh : ∀ p ∈ statePairs pred gt, p.1.length = p.2.length ∧ p.1 ≠ [])
    (hne : statePairs pred gt ≠ []) :
    (logRolloutError pred gt = none ↔ ∃ p ∈ statePairs pred gt, (∀ x ∈ p.1, x = 0) ∧ ∀ x ∈ p.2, x = 0) ∧
      ∀ m, logRolloutError pred gt = some m →
        Real.exp m = geoMean ((statePairs pred gt).map fun p => max (1 / 10 ^ 7) (relErrR p.1 p.2)) ∧ 1 / 10 ^ 7 ≤ Real.exp m ∧ Real.exp m ≤ 1 ∧
        (Real.exp m = 1 / 10 ^ 7 ↔ ∀ p ∈ statePairs pred gt, relErrR p.1 p.2 ≤ 1 / 10 ^ 7) := by
  have hpos : (0:ℝ) < 1 / 10 ^ 7 := by norm_num
  unfold logRolloutError
  rw [stateErrors_eq]
  obtain ⟨ps, hps⟩ : ∃ ps, ps = statePairs pred gt := ⟨_, rfl⟩
  rw [← hps] at hsh hne ⊢
  by_cases hz : ∃ p ∈ ps, (∀ x ∈ p.1, x = 0) ∧ ∀ x ∈ p.2, x = 0
  · have hn : ((ps.map fun p => relErr p.1 p.2).mapM id) = none := by
      obtain ⟨p, hp, hp0⟩ := hz
      have hm : none ∈ ps.map fun p => relErr p.1 p.2 := mem_map.2 ⟨p, hp, (C94_rel_err (hsh p hp).1 (hsh p hp).2).1.2 hp0⟩
      cases e : (ps.map fun p => relErr p.1 p.2).mapM id with
      | none => rfl
      | some es => rw [mapM_id_some.1 e] at hm; simp at hm
    rw [hn]
    exact ⟨iff_of_true rfl hz, fun m hm => by cases hm⟩
  · push Not at hz
    have hs : ∀ p ∈ ps, relErr p.1 p.2 = some (relErrR p.1 p.2) := fun p hp => relErr_some (hsh p hp).1 (hsh p hp).2 (by
      rintro ⟨h1, h2⟩
      obtain ⟨x, hx, hx0⟩ := hz p hp h1
      exact hx0 (h2 x hx))
    have he : ((ps.map fun p => relErr p.1 p.2).mapM id) = some (ps.map fun p => relErrR p.1 p.2) := by
      rw [mapM_id_some, map_map]
      exact map_congr_left hs
    rw [he]
    show (meanOf (((ps.map fun p => relErrR p.1 p.2).map fun e => max (1 / 10 ^ 7) e).map Real.log) = none ↔ _) ∧
      ∀ m, meanOf (((ps.map fun p => relErrR p.1 p.2).map fun e => max (1 / 10 ^ 7) e).map Real.log) = some m → _
    rw [map_map (f := fun p : List ℝ × List ℝ => relErrR p.1 p.2) (g := fun e : ℝ => max (1 / 10 ^ 7) e), show (fun e : ℝ => max (1 / 10 ^ 7) e) ∘ (fun p : List ℝ × List ℝ => relErrR p.1 p.2) = fun p => max (1 / 10 ^ 7) (relErrR p.1 p.2) from rfl]
    have hne' : (ps.map fun p => max (1 / 10 ^ 7) (relErrR p.1 p.2)) ≠ [] := by simpa using hne
    have hge : ∀ e ∈ ps.map fun p => max (1 / 10 ^ 7) (relErrR p.1 p.2), 1 / 10 ^ 7 ≤ e := by
      intro e he
      obtain ⟨p, -, rfl⟩ := mem_map.1 he
      exact le_max_left _ _
    have hle : ∀ e ∈ ps.map fun p => max (1 / 10 ^ 7) (relErrR p.1 p.2), e ≤ 1 := by
      intro e he
      obtain ⟨p, hp, rfl⟩ := mem_map.1 he
      exact max_le (by norm_num) ((C94_rel_err (hsh p hp).1 (hsh p hp).2).2 _ (hs p hp)).2.1
    obtain ⟨m, h1, h2⟩ := exp_mean_log hne' fun e he => hpos.trans_le (hge e he)
    obtain ⟨b1, b2, b3⟩ := geoMean_bounds hpos hne' hge hle
    refine ⟨iff_of_false (by rw [h1]; simp) (by push Not; exact hz), fun m' hm' => ?_⟩
    rw [h1] at hm'
    obtain rfl := Option.some.inj hm'
    rw [h2]
    refine ⟨rfl, b1, b2, b3.trans ?_⟩
    simp only [mem_map, forall_exists_index, and_imp, forall_apply_eq_imp_iff₂, max_eq_left_iff]

/-- **C95, perfect predictions.** A model whose rollouts agree exactly with the truth gets `1e-7`, not 0, if no state vanishes. -/
theorem C95_perfect {zs : List (List (List ℝ))} (h : ∀ z ∈ zs.flatten, ∃ x ∈ z, x ≠ 0) (hne : zs.flatten ≠ []) :
    ∃ m, logRolloutError zs zs = some m ∧ Real.exp m = 1 / 10 ^ 7 := by
  have hp : statePairs zs zs = zs.flatten.map fun z => (z, z) := by
    unfold statePairs
    clear h hne
    induction zs with
    | nil => rfl
    | cons a zs ih =>
      rw [zipWith_cons_cons, flatten_cons, flatten_cons, map_append, ih]
      congr 1
      induction a with
      | nil => rfl
      | cons x a ih => rw [zip_cons_cons, map_cons, ih]
  have hmem : ∀ p ∈ statePairs zs zs, p.1 = p.2 ∧ ∃ x ∈ p.1, x ≠ 0 := by
    rw [hp]
    intro p hp
    obtain ⟨z, hz, rfl⟩ := mem_map.1 hp
    exact ⟨rfl, h z hz⟩
  have hsh : ∀ p ∈ statePairs zs zs, p.1.length = p.2.length ∧ p.1 ≠ [] := by
    intro p hp
    obtain ⟨h1, x, hx, -⟩ := hmem p hp
    exact ⟨by rw [h1], fun e => by rw [e] at hx; cases hx⟩
  obtain ⟨h1, h2⟩ := C95_rollout hsh (by rw [hp]; simpa using hne)
  cases hm : logRolloutError zs zs with
  | none =>
    obtain ⟨p, hp, hz, -⟩ := h1.1 hm
    obtain ⟨-, x, hx, hx0⟩ := hmem p hp
    exact absurd (hz x hx) hx0
  | some m =>
    refine ⟨m, rfl, (h2 m hm).2.2.2.2 fun p hp => ?_⟩
    rw [← (hmem p hp).1, relErrR, show rmsR (List.zipWith (fun x y => x - y) p.1 p.1) = 0 from (rmsR_eq_zero _).2 ((subArr_zero rfl).2 rfl), zero_div]
    norm_num

/-- **C95, `test_Rollout`.** It is the geometric mean over the minibatches of the exponentials of their values; a loader without
minibatches is an error. -/
theorem C95_test {β : Type} (bs : Option ℕ) (hbs : bs ≠ some 0) (loader : List β) (err : β → ℝ) :
    testRollout bs loader err = if loader = [] then .error .key else .ok (geoMean (loader.map fun b => Real.exp (err b))) := by
  unfold testRollout
  rw [C89_mean bs hbs]
  split_ifs with h
  · rfl
  · show Except.ok (Real.exp ((loader.map err).sum / loader.length)) = _
    obtain ⟨m, h1, h2⟩ := exp_mean_log (es := loader.map fun b => Real.exp (err b)) (by simpa using h) (by
      intro e he
      obtain ⟨b, -, rfl⟩ := mem_map.1 he
      exact Real.exp_pos _)
    rw [← h2]
    have hl : ((loader.length : ℕ) : ℝ) ≠ 0 := by exact_mod_cast fun e => h (length_eq_zero_iff.1 e)
    rw [map_map, show (Real.log ∘ fun b => Real.exp (err b)) = err from funext fun b => Real.log_exp _, meanOf, fdiv, length_map, if_neg hl] at h1
    rw [Option.some.inj h1]

/-- Two rollouts of two states; the prediction of the second state of the first is wrong. -/
example : ∃ m, logRolloutError [[[1, 2], [1, 1]], [[1, 1], [2, 1]]] [[[1, 2], [-1, -1]], [[1, 1], [2, 1]]] = some m ∧ 1 / 10 ^ 7 < Real.exp m := by
  have hp : statePairs [[[1, 2], [1, 1]], [[1, 1], [2, 1]]] [[[1, 2], [-1, -1]], [[1, 1], [2, 1]]] =
      [([1, 2], [1, 2]), ([1, 1], [-1, -1]), ([1, 1], [1, 1]), ([2, 1], [2, 1])] := rfl
  obtain ⟨h1, h2⟩ := C95_rollout (pred := [[[1, 2], [1, 1]], [[1, 1], [2, 1]]]) (gt := [[[1, 2], [-1, -1]], [[1, 1], [2, 1]]])
    (by rw [hp]; simp) (by rw [hp]; simp)
  cases hm : logRolloutError [[[1, 2], [1, 1]], [[1, 1], [2, 1]]] [[[1, 2], [-1, -1]], [[1, 1], [2, 1]]] with
  | none => exact absurd (h1.1 hm) (by rw [hp]; simp)
  | some m =>
    obtain ⟨-, a, -, b⟩ := h2 m hm
    refine ⟨m, rfl, lt_of_le_of_ne a fun e => ?_⟩
    have := b.1 e.symm ([1, 1], [-1, -1]) (by rw [hp]; simp)
    norm_num [relErrR, rmsR] at this
    rw [show (4:ℝ) = 2 ^ 2 by norm_num, Real.sqrt_sq (by norm_num)] at this
    norm_num at this

/-! ### Cases for C94 -/

/-- The exchange of two coordinates. -/
def swap2 : DMat ℝ := DMat.of 2 2 fun i j => if i = j then 0 else 1

/-- The projection to the first coordinate does not commute with the exchange: the error is positive. -/
example : ∃ e, equivarianceError [1, 0, 0, 0] 2 2 id id [swap2] = .ok (some e) ∧ 0 < e ∧ e ≤ 1 := by
  obtain ⟨e, h1, h2, h3, h4⟩ := C94_equivariance_error (nout := 2) (nin := 2) (r := 1) (d := 2) (W := [1, 0, 0, 0]) (rin := id) (rout := id) (gs := [swap2])
    (by decide) (by decide) (by decide) (by decide) rfl (by simp) (by simp [swap2, DMat.IsSq]) (by simp [swap2, DMat.IsSq]) (by simp [swap2, DMat.IsSq])
  refine ⟨e, h1, lt_of_le_of_ne h2 fun h => ?_, h3⟩
  have := congrArg (fun A => DMat.e A 0 1) (h4.1 h.symm swap2 (by simp) 0 (by decide))
  simp [DMat.mul, matrixAt, swap2, DMat.of, Finset.sum_range_succ] at this

/-- The sum of the coordinates does. -/
example : equivarianceError [1, 1, 1, 1] 2 2 id id [swap2] = .ok (some 0) := by
  obtain ⟨e, h1, -, -, h4⟩ := C94_equivariance_error (nout := 2) (nin := 2) (r := 1) (d := 2) (W := [1, 1, 1, 1]) (rin := id) (rout := id) (gs := [swap2])
    (by decide) (by decide) (by decide) (by decide) rfl (by simp) (by simp [swap2, DMat.IsSq]) (by simp [swap2, DMat.IsSq]) (by simp [swap2, DMat.IsSq])
  rw [h1, h4.2 ?_]
  intro g hg k hk
  rw [mem_singleton.1 hg]
  have : k = 0 := by omega
  subst this
  refine DMat.ext rfl rfl fun i j hi hj => ?_
  have hi : i < 2 := hi
  have hj : j < 2 := hj
  interval_cases i <;> interval_cases j <;> simp [DMat.mul, matrixAt, swap2, DMat.of, Finset.sum_range_succ]

/-- The basis of the maps of vectors to vectors of the rotation group of the example world, tested on two rotations. -/
example : ∃ (solve : ℕ → LinOp ℝ → Py (DMat ℝ)) (r : Rep) (Q : LinOp ℝ), (Expr.rshift (.rep 0) (.rep 0)).eval exW 0 = .ok r ∧
    (r.equivariantBasis exW (gensOf exW (stdAtoms exW fun k g => trivialAtom _ _) rotLies fun _ => []) solve freshSt).1 = .ok Q ∧
    (0 < Q.sem.cols → equivarianceError Q.sem.flat 3 3 (rhoDense exW (fun k g => trivialAtom _ _) 0 (.rep 0)) (rhoDense exW (fun k g => trivialAtom _ _) 0 (.rep 0))
      ([NormedSpace.exp (rotLie 3), NormedSpace.exp ((2 : ℝ) • rotLie 3)].map DMat.ofMatrix) = .ok (some 0)) := by
  obtain ⟨s, h1, h2⟩ := exists_solver ℝ
  obtain ⟨r, Q, h3, h4, h5⟩ := C94_basis (W := exW) (g := 0) (N := 100) (custom := fun k g => trivialAtom _ _) (lie := rotLies) (disc := fun _ => []) (solve := fun _ => s)
    (ein := .rep 0) (eout := .rep 0) (exW_single 0 100 (by decide)) ⟨⟨by decide, Or.inl rfl⟩, ⟨by decide, Or.inl rfl⟩⟩ (by decide) rot_groups (h1 _ _) (fun _ _ C _ => h2 C) [] (by decide)
  refine ⟨_, r, Q, h3, h4, fun hc => h5 [NormedSpace.exp (rotLie 3), NormedSpace.exp ((2 : ℝ) • rotLie 3)] (by simp) ?_ (by decide) (by decide) hc⟩
  have hm : rotLie 3 ∈ Submodule.span ℝ {B | B ∈ rotLies 0} := Submodule.subset_span (by simp only [rotLies, if_pos, Set.mem_setOf_eq]; exact mem_singleton_self _)
  intro h hh
  rcases mem_cons.1 hh with rfl | hh
  · exact .exp hm
  · rw [mem_singleton.1 hh]
    exact .exp (Submodule.smul_mem _ _ hm)

end Verif
