import Mathlib.Analysis.SpecialFunctions.Sigmoid
import Verif.Lemmas.FrontEnds
import Verif.Lemmas.ApproxNet
import Verif.Lemmas.GlobalFlow
import Verif.Spec.Mlp

/-! The baseline networks. -/
namespace Verif
open List

theorem Mlp.layers_eq (M : Mlp) (n : ℕ) : M.layers n = layerWidths (M.cin.getD n) M.hidden M.cout := by
  obtain ⟨c, hs, m⟩ := M
  show ((c.getD n) :: hs).zip (hs ++ [m]) = layerWidths (c.getD n) hs m
  generalize c.getD n = n
  induction hs generalizing n with
  | nil => rfl
  | cons h t ih =>
    show (n, h) :: (h :: t).zip (t ++ [m]) = _
    rw [ih]; rfl

section
variable {R : Type} [CommRing R]

theorem dense_rowwise (F : FrontEnd) {p : DenseP R} {s : ℕ × ℕ} (hp : F.DenseShaped p s) : Rowwise s.1 s.2 (F.dense p) (denseVec (F.store p)) := by
  obtain ⟨hb, hw⟩ := hp
  intro X hX
  cases F with
  | torch =>
    simp only [if_true] at hw
    refine ⟨(X.mul p.w.transpose).addRow p.b, if_pos ⟨by rw [hX, hw.2], by rw [hb, hw.1]⟩, rfl, hw.1, fun i hi => ?_⟩
    rw [linear_row X p.w p.b (by rw [hX, hw.2]) (by rw [hb, hw.1]) hi]
    show (if (X.row i).length = p.w.transpose.rows ∧ p.b.length = p.w.transpose.cols then Except.ok _ else _) = _
    rw [if_pos ⟨by rw [DMat.length_row, hX]; exact hw.2.symm, by rw [hb]; exact hw.1.symm⟩, show (FrontEnd.torch.store p).w.transpose = p.w from DMat.transpose_transpose _]
    rfl
  | objax | flax | haiku =>
    simp only [reduceCtorEq, if_false] at hw
    refine ⟨(X.mul p.w).addRow p.b, if_pos ⟨by rw [hX, hw.1], by rw [hb, hw.2]⟩, rfl, hw.2, fun i hi => ?_⟩
    have := linear_row X p.w.transpose p.b (by rw [hX]; exact hw.1.symm) (by rw [hb]; exact hw.2.symm) hi
    rw [DMat.transpose_transpose] at this
    rw [this]
    show (if (X.row i).length = p.w.rows ∧ p.b.length = p.w.cols then Except.ok _ else _) = _
    rw [if_pos ⟨by rw [DMat.length_row, hX, hw.1], by rw [hb, hw.2]⟩]
    rfl

theorem mapE_rowwise (n : ℕ) (f : R → R) : Rowwise n n (fun X => .ok (X.mapE f)) (fun x => .ok (x.map f)) := by
  intro X hX
  refine ⟨X.mapE f, rfl, rfl, hX, fun i hi => ?_⟩
  beta_reduce
  congr 1
  refine DMat.vec_ext (by rw [length_map, DMat.length_row, DMat.length_row]; rfl) fun j hj => ?_
  have hj' : j < X.cols := by simpa using hj
  rw [DMat.getD_row, DMat.mapE, DMat.of_e hi hj', getD_eq_getElem _ _ hj, getElem_map, ← getD_eq_getElem (d := 0), DMat.getD_row]

theorem mlp_rowwise (F : FrontEnd) (act : R → R) (hs : List ℕ) : ∀ (n m : ℕ) (ps : List (DenseP R)), Forall₂ F.DenseShaped ps (layerWidths n hs m) →
    Rowwise n m (F.mlpApply act ps) (mlpVec act (ps.map F.store)) := by
  induction hs with
  | nil =>
    intro n m ps h
    obtain ⟨p, t, hp, ht, rfl⟩ : ∃ p t, F.DenseShaped p (n, m) ∧ Forall₂ F.DenseShaped t [] ∧ ps = p :: t := by
      cases h with | cons h1 h2 => exact ⟨_, _, h1, h2, rfl⟩
    cases ht
    exact dense_rowwise F hp
  | cons w hs ih =>
    intro n m ps h
    obtain ⟨p, t, hp, ht, rfl⟩ : ∃ p t, F.DenseShaped p (n, w) ∧ Forall₂ F.DenseShaped t (layerWidths w hs m) ∧ ps = p :: t := by
      cases h with | cons h1 h2 => exact ⟨_, _, h1, h2, rfl⟩
    have ht' := ih w m t ht
    cases t with
    | nil => cases hs <;> cases ht
    | cons q t => exact (dense_rowwise F hp).comp ((mapE_rowwise w (swish act)).comp ht')

theorem denseVec_ok {p : DenseP R} {n m : ℕ} (hp : FrontEnd.objax.DenseShaped p (n, m)) {x : List R} (hx : x.length = n) :
    denseVec p x = .ok (zipWith (· + ·) (p.w.transpose.mulVec x) p.b) := by
  obtain ⟨hb, hw⟩ := hp
  simp only [reduceCtorEq, if_false] at hw
  exact if_pos ⟨by rw [hx, hw.1], by rw [hb, hw.2]⟩

theorem dense_length {p : DenseP R} {n m : ℕ} (hp : FrontEnd.objax.DenseShaped p (n, m)) (x : List R) :
    (zipWith (· + ·) (p.w.transpose.mulVec x) p.b).length = m := by
  obtain ⟨hb, hw⟩ := hp
  simp only [reduceCtorEq, if_false] at hw
  rw [length_zipWith, DMat.length_mulVec, hb]
  show min p.w.cols m = m
  rw [hw.2, min_self]

theorem mlpVec_cons (act : R → R) (p : DenseP R) {ps : List (DenseP R)} (h : ps ≠ []) (x : List R) :
    mlpVec act (p :: ps) x = denseVec p x >>= fun y => mlpVec act ps (y.map (swish act)) := by
  cases ps with
  | nil => exact absurd rfl h
  | cons q ps => rfl

theorem layerWidths_ne {R : Type} [CommRing R] {F : FrontEnd} {ps : List (DenseP R)} {n m : ℕ} {hs : List ℕ} (h : Forall₂ F.DenseShaped ps (layerWidths n hs m)) :
    ps ≠ [] := by
  rintro rfl
  cases hs <;> cases h

/-- Shaped parameters: the network returns on every vector of the right length. -/
theorem mlpVec_ok (act : R → R) (hs : List ℕ) : ∀ (n m : ℕ) (ps : List (DenseP R)), Forall₂ FrontEnd.objax.DenseShaped ps (layerWidths n hs m) → ∀ x : List R, x.length = n →
    ∃ y, mlpVec act ps x = .ok y ∧ y.length = m := by
  induction hs with
  | nil =>
    intro n m ps h x hx
    cases h with
    | cons h1 h2 => cases h2; exact ⟨_, denseVec_ok h1 hx, dense_length h1 x⟩
  | cons w hs ih =>
    intro n m ps h x hx
    cases h with
    | cons h1 h2 =>
      obtain ⟨y, e, l⟩ := ih w m _ h2 _ ((length_map (swish act)).trans (dense_length h1 x))
      exact ⟨y, by rw [mlpVec_cons act _ (layerWidths_ne h2), denseVec_ok h1 hx]; exact e, l⟩

end

/-! ### The swish function -/

theorem abs_mul_exp_neg_abs (x : ℝ) : |x| * Real.exp (-|x|) ≤ 1 := by
  have h := Real.add_one_le_exp |x|
  rw [Real.exp_neg]
  rw [mul_inv_le_iff₀ (Real.exp_pos _)]
  linarith

theorem sigmoid_mul_compl_le (x : ℝ) : Real.sigmoid x * (1 - Real.sigmoid x) ≤ Real.exp (-|x|) := by
  have h0 := Real.sigmoid_pos x
  have h1 := Real.sigmoid_lt_one x
  have e : 1 - Real.sigmoid x = Real.exp (-x) * Real.sigmoid x := by
    rw [Real.sigmoid_def]
    have : 0 < 1 + Real.exp (-x) := by positivity
    field_simp
    ring
  rcases le_total 0 x with h | h
  · rw [abs_of_nonneg h, e]
    have := Real.exp_pos (-x)
    nlinarith [mul_nonneg this.le h0.le]
  · rw [abs_of_nonpos h, neg_neg]
    have h2 : Real.sigmoid x = Real.exp x * (1 - Real.sigmoid x) := by
      rw [e, ← mul_assoc, ← Real.exp_add]; simp
    have := Real.exp_pos x
    rw [h2]
    nlinarith [mul_nonneg this.le (sub_nonneg.2 h1.le)]

theorem hasDerivAt_swish (x : ℝ) : HasDerivAt (swish Real.sigmoid) (Real.sigmoid x * (1 - Real.sigmoid x) * x + Real.sigmoid x) x := by
  have := (Real.hasDerivAt_sigmoid x).mul (hasDerivAt_id x)
  have e : swish Real.sigmoid = Real.sigmoid * id := rfl
  rw [e]
  simpa using this

/-- The swish function of the library is Lipschitz. -/
theorem swish_lipschitz (x y : ℝ) : |swish Real.sigmoid x - swish Real.sigmoid y| ≤ 2 * |x - y| := by
  have h := Convex.norm_image_sub_le_of_norm_hasDerivWithin_le (s := Set.univ) (C := 2) (f := swish Real.sigmoid) (fun z _ => (hasDerivAt_swish z).hasDerivWithinAt) (fun z _ => ?_)
    convex_univ (Set.mem_univ y) (Set.mem_univ x)
  · simpa [Real.norm_eq_abs] using h
  · rw [Real.norm_eq_abs]
    have h0 := Real.sigmoid_pos z
    have h1 := Real.sigmoid_lt_one z
    refine (abs_add_le _ _).trans ?_
    rw [abs_mul, abs_of_pos (mul_pos h0 (sub_pos.2 h1)), abs_of_pos h0]
    have a := mul_le_mul_of_nonneg_right (sigmoid_mul_compl_le z) (abs_nonneg z)
    have b := abs_mul_exp_neg_abs z
    linarith [mul_comm |z| (Real.exp (-|z|))]

theorem dst_map {f : ℝ → ℝ} {K : ℝ} (hK : 0 ≤ K) (hf : ∀ a b, |f a - f b| ≤ K * |a - b|) {x y : List ℝ} (h : x.length = y.length) :
    dst (x.map f) (y.map f) ≤ K * dst x y := by
  unfold dst
  rw [show K = √(K ^ 2) from (Real.sqrt_sq hK).symm, ← Real.sqrt_mul (sq_nonneg K)]
  refine Real.sqrt_le_sqrt ?_
  unfold dist2
  rw [length_map, Finset.mul_sum]
  refine Finset.sum_le_sum fun i hi => ?_
  have hi' := Finset.mem_range.1 hi
  rw [getD_eq_getElem _ _ (by simpa using hi'), getD_eq_getElem _ _ (by simpa [← h] using hi'), getD_eq_getElem _ _ hi', getD_eq_getElem _ _ (by omega), getElem_map, getElem_map,
    Real.norm_eq_abs, Real.norm_eq_abs, ← mul_pow]
  exact pow_le_pow_left₀ (abs_nonneg _) (hf _ _) 2

/-- The product of the Frobenius norms of the weights, and a factor 2 for each swish. -/
noncomputable def lipConst (ps : List (DenseP ℝ)) : ℝ := 2 ^ (ps.length - 1) * (ps.map fun p => nrm p.w.transpose.flat).prod

theorem lipConst_nonneg (ps : List (DenseP ℝ)) : 0 ≤ lipConst ps :=
  mul_nonneg (by positivity) (prod_nonneg fun a ha => by
    obtain ⟨p, -, rfl⟩ := mem_map.1 ha
    exact nrm_nonneg _)

theorem denseVec_lipschitz {p : DenseP ℝ} {n m : ℕ} (hp : FrontEnd.objax.DenseShaped p (n, m)) {x x' : List ℝ} (hx : x.length = n) (hx' : x'.length = n) :
    dst (zipWith (· + ·) (p.w.transpose.mulVec x) p.b) (zipWith (· + ·) (p.w.transpose.mulVec x') p.b) ≤ nrm p.w.transpose.flat * dst x x' := by
  obtain ⟨hb, hw⟩ := hp
  simp only [reduceCtorEq, if_false] at hw
  rw [dst_add (n := m) (by rw [DMat.length_mulVec]; exact hw.2) (by rw [DMat.length_mulVec]; exact hw.2) hb]
  exact mulVec_lipschitz (by rw [hx]; exact hw.1.symm) (by rw [hx']; exact hw.1.symm)

theorem mlpVec_lipschitz (hs : List ℕ) : ∀ (n m : ℕ) (ps : List (DenseP ℝ)), Forall₂ FrontEnd.objax.DenseShaped ps (layerWidths n hs m) →
    ∀ x x' y y' : List ℝ, x.length = n → x'.length = n → mlpVec Real.sigmoid ps x = .ok y → mlpVec Real.sigmoid ps x' = .ok y' → dst y y' ≤ lipConst ps * dst x x' := by
  induction hs with
  | nil =>
    intro n m ps h x x' y y' hx hx' hy hy'
    cases h with
    | cons h1 h2 =>
      cases h2
      rw [show mlpVec _ [_] x = _ from denseVec_ok h1 hx] at hy
      rw [show mlpVec _ [_] x' = _ from denseVec_ok h1 hx'] at hy'
      obtain rfl := Except.ok.inj hy
      obtain rfl := Except.ok.inj hy'
      simpa [lipConst] using denseVec_lipschitz h1 hx hx'
  | cons w hs ih =>
    intro n m ps h x x' y y' hx hx' hy hy'
    cases h with
    | @cons p _ t _ h1 h2 =>
      rw [mlpVec_cons _ _ (layerWidths_ne h2), denseVec_ok h1 hx] at hy
      rw [mlpVec_cons _ _ (layerWidths_ne h2), denseVec_ok h1 hx'] at hy'
      have a := ih w m _ h2 _ _ y y' ((length_map _).trans (dense_length h1 x)) ((length_map _).trans (dense_length h1 x')) hy hy'
      have b := dst_map (f := swish Real.sigmoid) (by norm_num) swish_lipschitz ((dense_length h1 x).trans (dense_length h1 x').symm)
      have c := denseVec_lipschitz h1 hx hx'
      have hl : lipConst (p :: t) = lipConst t * (2 * nrm p.w.transpose.flat) := by
        cases t with
        | nil => exact absurd rfl (layerWidths_ne h2)
        | cons q t => simp only [lipConst, length_cons, map_cons, prod_cons, Nat.add_sub_cancel, pow_succ]; ring
      rw [hl, mul_assoc]
      refine a.trans (mul_le_mul_of_nonneg_left (b.trans ?_) (lipConst_nonneg t))
      rw [mul_assoc]
      exact mul_le_mul_of_nonneg_left c (by norm_num)

/-! ### Smoothness -/

section
variable {T : Type*} [NormedAddCommGroup T] [NormedSpace ℝ T] {k : WithTop ℕ∞}

theorem SmoothVec.map {n : ℕ} {x : T → List ℝ} (hx : SmoothVec k n x) {f : ℝ → ℝ} (hf : ContDiff ℝ k f) : SmoothVec k n fun t => (x t).map f := by
  have e : (fun t => (x t).map f) = fun t => (range n).map fun i => f ((x t).getD i 0) := by
    funext t
    refine ext_getElem (by simp [hx.1]) fun i h1 h2 => ?_
    rw [getElem_map, getElem_map, getElem_range, getD_eq_getElem _ _ (by simpa using h1)]
  rw [e]
  exact SmoothVec.range_map fun i _ => hf.comp (hx.2 i)

theorem SmoothCall.dense {p : T → DenseP ℝ} {m n l d : ℕ} (hw : SmoothMat k m n fun t => (p t).w) (hb : SmoothVec k l fun t => (p t).b) {x : T → List ℝ} (hx : SmoothVec k d x) :
    SmoothCall k fun t => denseVec (p t) (x t) := by
  by_cases h : d = m ∧ l = n
  · refine Or.inl ⟨min n l, fun t => List.zipWith (· + ·) ((p t).w.transpose.mulVec (x t)) (p t).b, (SmoothMat.mulVec hw.transpose hx).zipWith hb fun hu hv => hu.add hv, fun t => ?_⟩
    exact if_pos ⟨by rw [hx.1, (hw.1 t).1, h.1], by rw [hb.1, (hw.1 t).2, h.2]⟩
  · refine Or.inr ⟨.type, fun t => if_neg ?_⟩
    rw [hx.1, hb.1, (hw.1 t).1, (hw.1 t).2]
    exact h

/-- The parameters of a layer depend smoothly on `t`. -/
def SmoothDense (k : WithTop ℕ∞) (p : T → DenseP ℝ) : Prop := (∃ m n, SmoothMat k m n fun t => (p t).w) ∧ ∃ l, SmoothVec k l fun t => (p t).b

theorem contDiff_swish {act : ℝ → ℝ} (h : ContDiff ℝ k act) : ContDiff ℝ k (swish act) := h.mul contDiff_id

theorem SmoothCall.mlp {act : ℝ → ℝ} (hact : ContDiff ℝ k act) (ps : List (T → DenseP ℝ)) : (∀ p ∈ ps, SmoothDense k p) → ∀ {d : ℕ} {x : T → List ℝ}, SmoothVec k d x →
    SmoothCall k fun t => mlpVec act (ps.map fun p => p t) (x t) := by
  induction ps with
  | nil => exact fun _ _ _ hx => SmoothCall.ok hx
  | cons p ps ih =>
    intro hp d x hx
    obtain ⟨⟨m, n, hw⟩, l, hb⟩ := hp p (by simp)
    cases ps with
    | nil => exact SmoothCall.dense hw hb hx
    | cons q ps =>
      exact SmoothCall.bind (F := fun t y => mlpVec act ((q :: ps).map fun p => p t) (y.map (swish act))) (SmoothCall.dense hw hb hx)
        fun _ _ hy => ih (fun p hp' => hp p (mem_cons_of_mem _ hp')) (hy.map (contDiff_swish hact))

end

end Verif
