import Verif.Props.Characters
import Verif.Props.Threads
import Verif.Props.LinearAlg
import Verif.Lemmas.ApproxLayer

/-! C138: for a finite orthogonal group the projector is the mean over the group; for every group it finds the nearest invariant vector. -/
namespace Verif
open List

/-- The mean of vectors of length `n` that belong to the elements of a finite set. -/
noncomputable def meanOver {M : Type} (S : Finset M) (n : ℕ) (f : M → List ℝ) : List ℝ := (range n).map fun i => (∑ h ∈ S, (f h).getD i 0) / S.card

section
variable {M : Type} {S : Finset M} {n m : ℕ} {f f' : M → List ℝ}

theorem length_meanOver : (meanOver S n f).length = n := by simp [meanOver]

theorem getD_meanOver {i : ℕ} (hi : i < n) : (meanOver S n f).getD i 0 = (∑ h ∈ S, (f h).getD i 0) / S.card := by
  rw [getD_eq_getElem _ _ (by rw [length_meanOver]; exact hi)]
  simp [meanOver]

theorem meanOver_congr (h : ∀ a ∈ S, f a = f' a) : meanOver S n f = meanOver S n f' := by
  unfold meanOver
  exact map_congr_left fun i _ => by rw [Finset.sum_congr rfl fun a ha => by rw [h a ha]]

theorem meanOver_const (hS : S.Nonempty) {v : List ℝ} (hv : v.length = n) : meanOver S n (fun _ => v) = v := by
  have hk : (S.card : ℝ) ≠ 0 := by exact_mod_cast Finset.card_ne_zero.2 hS
  refine DMat.vec_ext (by rw [length_meanOver, hv]) fun i hi => ?_
  rw [length_meanOver] at hi
  rw [getD_meanOver hi, Finset.sum_const, nsmul_eq_mul]
  field_simp

theorem mulVec_meanOver {T : DMat ℝ} (hT : T.cols = n) : T.mulVec (meanOver S n f) = meanOver S T.rows fun h => T.mulVec (f h) := by
  refine DMat.vec_ext (by rw [DMat.length_mulVec, length_meanOver]) fun i hi => ?_
  rw [DMat.length_mulVec] at hi
  rw [getD_meanOver hi, DMat.getD_mulVec hi, Finset.sum_congr rfl fun j hj => by rw [getD_meanOver (by rw [← hT]; exact Finset.mem_range.1 hj)],
    Finset.sum_congr rfl fun h _ => DMat.getD_mulVec hi, Finset.sum_comm, Finset.sum_div]
  refine Finset.sum_congr rfl fun j _ => ?_
  rw [← Finset.mul_sum, mul_div_assoc]

theorem meanOver_add (h : ∀ a ∈ S, (f a).length = n) (h' : ∀ a ∈ S, (f' a).length = n) :
    zipWith (· + ·) (meanOver S n f) (meanOver S n f') = meanOver S n fun a => zipWith (· + ·) (f a) (f' a) := by
  refine DMat.vec_ext (by simp [length_meanOver]) fun i hi => ?_
  have hi' : i < n := by simpa [length_meanOver] using hi
  have key : ∀ u v : List ℝ, u.length = n → v.length = n → (zipWith (· + ·) u v).getD i 0 = u.getD i 0 + v.getD i 0 := fun u v hu hv => by
    rw [getD_eq_getElem _ _ (by simp [hu, hv]; exact hi'), getD_eq_getElem _ _ (by rw [hu]; exact hi'), getD_eq_getElem _ _ (by rw [hv]; exact hi'), getElem_zipWith]
  rw [key _ _ length_meanOver length_meanOver, getD_meanOver hi', getD_meanOver hi', getD_meanOver hi',
    Finset.sum_congr rfl fun a ha => key _ _ (h a ha) (h' a ha), Finset.sum_add_distrib, add_div]

theorem unflat_meanOver {x : List ℝ} : (DMat.unflat m n (meanOver S (m * n) f)).mulVec x = meanOver S m fun h => (DMat.unflat m n (f h)).mulVec x := by
  refine DMat.vec_ext (by rw [DMat.length_mulVec, length_meanOver]; rfl) fun i hi => ?_
  rw [DMat.length_mulVec] at hi
  have hi' : i < m := hi
  rw [getD_meanOver hi', DMat.getD_mulVec hi, Finset.sum_congr rfl fun h _ => DMat.getD_mulVec (A := DMat.unflat m n (f h)) hi']
  show ∑ j ∈ Finset.range n, _ = (∑ h ∈ S, ∑ j ∈ Finset.range n, _) / _
  rw [Finset.sum_comm, Finset.sum_div]
  refine Finset.sum_congr rfl fun j hj => ?_
  have hj' : j < n := Finset.mem_range.1 hj
  rw [show (DMat.unflat m n (meanOver S (m * n) f)).e i j = _ from DMat.of_e hi' hj', getD_meanOver (mul_add_lt hi' hj'),
    Finset.sum_congr rfl fun h _ => congrArg (· * x.getD j 0) (show (DMat.unflat m n (f h)).e i j = (f h).getD (i * n + j) 0 from DMat.of_e hi' hj'), ← Finset.sum_mul]
  ring

end

theorem conjT_real (A : DMat ℝ) : A.conjTranspose = A.transpose :=
  DMat.ext rfl rfl fun i j hi hj => by
    rw [DMat.conjTranspose_e, DMat.transpose_e]
    rfl

/-- A projector onto the vectors fixed by a finite group of orthogonal matrices is the mean of the matrices. -/
theorem IsProjector.mean {M : Type} [Monoid M] {S : Finset M} (hne : S.Nonempty) {n : ℕ} {P : DMat ℝ} {F : List ℝ → Prop} (hP : IsProjector n P F)
    (U : M → DMat ℝ) (hU : ∀ a ∈ S, (U a).Unit n) (hS : ∀ a ∈ S, ∀ b ∈ S, a * b ∈ S) (hρ : ∀ a ∈ S, ∀ b ∈ S, U (a * b) = (U a).mul (U b))
    (hc : ∀ a ∈ S, ∀ b ∈ S, ∀ b' ∈ S, a * b = a * b' → b = b') (hF : ∀ v : List ℝ, v.length = n → (F v ↔ ∀ a ∈ S, (U a).mulVec v = v))
    {v : List ℝ} (hv : v.length = n) : P.mulVec v = meanOver S n fun a => (U a).mulVec v := by
  classical
  have inv : F (meanOver S n fun a => (U a).mulVec v) := by
    refine (hF _ length_meanOver).2 fun a ha => ?_
    have himg : S.image (a * ·) = S := by
      apply Finset.eq_of_subset_of_card_le
      · intro x hx
        obtain ⟨b, hb, rfl⟩ := Finset.mem_image.1 hx
        exact hS a ha b hb
      · rw [Finset.card_image_of_injOn fun b hb b' hb' h => hc a ha b hb b' hb' h]
    rw [mulVec_meanOver (hU a ha).sq.2, (hU a ha).sq.1]
    unfold meanOver
    refine map_congr_left fun i _ => ?_
    congr 1
    conv_rhs => rw [← himg]
    rw [Finset.sum_image fun b hb b' hb' h => hc a ha b hb b' hb' h]
    exact Finset.sum_congr rfl fun b hb => by beta_reduce; rw [hρ a ha b hb, DMat.mulVec_mul _ _ _ (by rw [(hU a ha).sq.2, (hU b hb).sq.1])]
  have absorb : ∀ a ∈ S, P.mul (U a) = P := by
    intro a ha
    have h1 : (U a).mul P = P := by
      refine DMat.ext_of_mulVec (n := n) ⟨(hU a ha).sq.1, hP.sq.2⟩ hP.sq fun w hw => ?_
      rw [DMat.mulVec_mul _ _ _ (by rw [(hU a ha).sq.2, hP.sq.1])]
      exact (hF _ (by simp [hP.sq.1])).1 (hP.range w hw) a ha
    have h2 : (U a).conjTranspose.mul P = P := by
      conv_lhs => rw [← h1]
      rw [← DMat.mul_assoc' _ _ _ (by rw [DMat.conjTranspose_cols]), (hU a ha).orth, DMat.one_mul' _ hP.sq.1]
    have h3 := congrArg DMat.conjTranspose h2
    rw [DMat.conjTranspose_mul _ _ (by rw [DMat.conjTranspose_cols, (hU a ha).sq.1, hP.sq.1]), hP.herm, DMat.conjTranspose_conjTranspose] at h3
    exact h3
  rw [← (hP.fix _ length_meanOver).1 inv, mulVec_meanOver hP.sq.2, hP.sq.1]
  rw [meanOver_congr (f' := fun _ => P.mulVec v) fun a ha => by rw [← DMat.mulVec_mul _ _ _ (by rw [hP.sq.2, (hU a ha).sq.1]), absorb a ha],
    meanOver_const hne (by rw [DMat.length_mulVec, hP.sq.1])]

/-- An orthogonal projector finds the nearest vector. -/
theorem IsProjector.nearest {n : ℕ} {P : DMat ℝ} {F : List ℝ → Prop} (hP : IsProjector n P F) {v u : List ℝ} (hv : v.length = n) (hu : u.length = n) (hF : F u) :
    ∑ i ∈ Finset.range n, (v.getD i 0 - (P.mulVec v).getD i 0) ^ 2 ≤ ∑ i ∈ Finset.range n, (v.getD i 0 - u.getD i 0) ^ 2 := by
  have sym : ∀ i < n, ∀ j < n, P.e i j = P.e j i := fun i hi j hj => by
    have := congrArg (fun A : DMat ℝ => A.e j i) hP.herm
    simp only [DMat.conjTranspose_e] at this
    exact this
  have adj : ∀ x y : ℕ → ℝ, ∑ i ∈ Finset.range n, (∑ j ∈ Finset.range n, P.e i j * x j) * y i = ∑ i ∈ Finset.range n, x i * ∑ j ∈ Finset.range n, P.e i j * y j := by
    intro x y
    simp only [Finset.sum_mul, Finset.mul_sum]
    rw [Finset.sum_comm]
    refine Finset.sum_congr rfl fun i hi => Finset.sum_congr rfl fun j hj => ?_
    rw [sym j (Finset.mem_range.1 hj) i (Finset.mem_range.1 hi)]
    ring
  have ap : ∀ w : List ℝ, ∀ i ∈ Finset.range n, ∑ j ∈ Finset.range n, P.e i j * w.getD j 0 = (P.mulVec w).getD i 0 := fun w i hi => by
    rw [DMat.getD_mulVec (by rw [hP.sq.1]; exact Finset.mem_range.1 hi), hP.sq.2]
  have f1 := (hP.fix u hu).1 hF
  have f2 := (hP.fix (P.mulVec v) (by simp [hP.sq.1])).1 (hP.range v hv)
  -- the difference of the two invariant vectors is orthogonal to the error
  have orth : ∑ i ∈ Finset.range n, (v.getD i 0 - (P.mulVec v).getD i 0) * ((P.mulVec v).getD i 0 - u.getD i 0) = 0 := by
    have e := adj (fun j => v.getD j 0 - (P.mulVec v).getD j 0) fun j => (P.mulVec v).getD j 0 - u.getD j 0
    have l : ∀ i ∈ Finset.range n, (∑ j ∈ Finset.range n, P.e i j * (v.getD j 0 - (P.mulVec v).getD j 0)) * ((P.mulVec v).getD i 0 - u.getD i 0) = 0 := fun i hi => by
      simp only [mul_sub (P.e _ _), Finset.sum_sub_distrib]
      rw [ap v i hi, ap (P.mulVec v) i hi, f2, sub_self, zero_mul]
    have r : ∀ i ∈ Finset.range n, (v.getD i 0 - (P.mulVec v).getD i 0) * ∑ j ∈ Finset.range n, P.e i j * ((P.mulVec v).getD j 0 - u.getD j 0) =
        (v.getD i 0 - (P.mulVec v).getD i 0) * ((P.mulVec v).getD i 0 - u.getD i 0) := fun i hi => by
      simp only [mul_sub (P.e _ _), Finset.sum_sub_distrib]
      rw [ap u i hi, ap (P.mulVec v) i hi, f1, f2]
    rw [Finset.sum_congr rfl l, Finset.sum_const_zero, Finset.sum_congr rfl r] at e
    exact e.symm
  have split : ∑ i ∈ Finset.range n, (v.getD i 0 - u.getD i 0) ^ 2 = ∑ i ∈ Finset.range n, (v.getD i 0 - (P.mulVec v).getD i 0) ^ 2 +
      2 * ∑ i ∈ Finset.range n, (v.getD i 0 - (P.mulVec v).getD i 0) * ((P.mulVec v).getD i 0 - u.getD i 0) +
      ∑ i ∈ Finset.range n, ((P.mulVec v).getD i 0 - u.getD i 0) ^ 2 := by
    rw [Finset.mul_sum, ← Finset.sum_add_distrib, ← Finset.sum_add_distrib]
    exact Finset.sum_congr rfl fun i _ => by ring
  rw [split, orth]
  have := Finset.sum_nonneg (s := Finset.range n) fun i _ => sq_nonneg ((P.mulVec v).getD i 0 - u.getD i 0)
  linarith

section
variable {W : World} {g : Gid} {N : ℕ} {custom : ∀ k g, AtomRep ℝ (W.d g) (W.usize k g)}
  {lie disc : ∀ g, List (Matrix (Fin (W.d g)) (Fin (W.d g)) ℝ)} {solve : ℕ → LinOp ℝ → Py (DMat ℝ)}

/-- The matrices of a representation multiply as the group elements do. -/
theorem elem_mul (ok : GroupsOK W custom lie disc) {r : Rep} (hwf : r.WF W) {a b : Matrix (Fin (W.d g)) (Fin (W.d g)) ℝ} (ha : Generated (lie g) (disc g) a)
    (hb : Generated (lie g) (disc g) b) : r.mat (Interp.elem W custom g (a * b)) = (r.mat (Interp.elem W custom g a)).mul (r.mat (Interp.elem W custom g b)) := by
  have hab := Rep.mat_mul (at_sized (a := stdAtoms W custom) _) (at_sized _)
    (at_mul (stdAtoms_hom ok.hom) (generated_oneAt ha) (generated_oneAt hb)) hwf
  refine Eq.trans ?_ hab
  refine congrArg (fun M => r.mat (Interp.at W (stdAtoms W custom) M)) (funext fun g' => ?_)
  by_cases hg : g' = g
  · subst hg; simp only [oneAt_same]
  · rw [oneAt_ne hg, oneAt_ne hg, oneAt_ne hg, one_mul]

/-- For an orthogonal group, the matrix of the identity is the identity. -/
theorem elem_one (ok : GroupsOK W custom lie disc) (ho : W.orth g = true) {r : Rep} (hwf : r.WF W) : r.mat (Interp.elem W custom g 1) = DMat.one (r.size W) := by
  have hu := Rep.mat_unit (elem_unit (custom := custom) ok ho (g := g) .one) hwf
  have h1 := elem_mul ok hwf (a := 1) (b := 1) (g := g) .one .one
  rw [one_mul] at h1
  have h2 := congrArg (fun A => (r.mat (Interp.elem W custom g 1)).conjTranspose.mul A) h1
  beta_reduce at h2
  rw [← DMat.mul_assoc' _ _ _ (by rw [DMat.conjTranspose_cols]), hu.orth, DMat.one_mul' _ hu.sq.1] at h2
  exact h2.symm

theorem elem_mul_inv (ok : GroupsOK W custom lie disc) (ho : W.orth g = true) {r : Rep} (hwf : r.WF W) {h : Matrix (Fin (W.d g)) (Fin (W.d g)) ℝ}
    (hh : Generated (lie g) (disc g) h) : (r.mat (Interp.elem W custom g h)).mul (r.mat (Interp.elem W custom g h⁻¹)) = DMat.one (r.size W) := by
  rw [← elem_mul ok hwf hh (Generated.inverse (ok.unit g) hh), Matrix.mul_nonsing_inv _ (Generated.isUnit (ok.unit g) hh), elem_one ok ho hwf]

theorem elem_inv_mul (ok : GroupsOK W custom lie disc) (ho : W.orth g = true) {r : Rep} (hwf : r.WF W) {h : Matrix (Fin (W.d g)) (Fin (W.d g)) ℝ}
    (hh : Generated (lie g) (disc g) h) : (r.mat (Interp.elem W custom g h⁻¹)).mul (r.mat (Interp.elem W custom g h)) = DMat.one (r.size W) := by
  rw [← elem_mul ok hwf (Generated.inverse (ok.unit g) hh) hh, Matrix.nonsing_inv_mul _ (Generated.isUnit (ok.unit g) hh), elem_one ok ho hwf]

/-- For an orthogonal group, the matrix of the inverse element is the transpose. -/
theorem elem_inv (ok : GroupsOK W custom lie disc) (ho : W.orth g = true) {r : Rep} (hwf : r.WF W) {h : Matrix (Fin (W.d g)) (Fin (W.d g)) ℝ}
    (hh : Generated (lie g) (disc g) h) : r.mat (Interp.elem W custom g h⁻¹) = (r.mat (Interp.elem W custom g h)).transpose := by
  have hu := fun {h} (hh : Generated (lie g) (disc g) h) => Rep.mat_unit (elem_unit (custom := custom) ok ho hh) hwf
  have hi := Generated.inverse (ok.unit g) hh
  have h3 := congrArg (fun A => (r.mat (Interp.elem W custom g h)).conjTranspose.mul A) (elem_mul_inv ok ho hwf hh)
  beta_reduce at h3
  rw [← DMat.mul_assoc' _ _ _ (by rw [DMat.conjTranspose_cols]), (hu hh).orth, DMat.one_mul' _ (hu hi).sq.1,
    DMat.mul_one' _ (by rw [DMat.conjTranspose_cols, (hu hh).sq.1]), conjT_real] at h3
  exact h3

/-- **C138.** For a finite orthogonal group, `equivariant_projector()` is the mean of the matrices of the representation over the group: for every expression, after
any history of calls. -/
theorem C138_projector (hW : W.SingleOK g N) (e : Expr) (he : e.OK W g) (hN : e.bound W g ≤ N) (ok : GroupsOK W custom lie disc) (ho : W.orth g = true)
    (S : Finset (Matrix (Fin (W.d g)) (Fin (W.d g)) ℝ)) (hS : ∀ h, h ∈ S ↔ Generated (lie g) (disc g) h)
    (hsol : SolverOK W (gensOf W (stdAtoms W custom) lie disc) solve)
    (htot : SolverRuns W (gensOf W (stdAtoms W custom) lie disc) solve) (calls : List SolveCall) :
    ∃ r L, e.eval W g = .ok r ∧
      (r.equivariantProjector W (gensOf W (stdAtoms W custom) lie disc) solve (session W (gensOf W (stdAtoms W custom) lie disc) solve calls freshSt)).1 = .ok L ∧
      ∀ v : List ℝ, v.length = e.dim W g → L.sem.mulVec v = meanOver S (e.dim W g) fun h => (e.den g (Interp.elem W custom g h)).1.mulVec v := by
  obtain ⟨r, hr, hwf, hk, hsz, hm⟩ := e.eval_good hW he hN
  obtain ⟨h1, h2⟩ := C22_equivariant_projector (fun _ => rfl) (gensOf_dual ok).sized hsol hwf (Rep.single_onePerGroup hwf hk) calls
  obtain ⟨L, hL⟩ := h2 htot
  refine ⟨r, L, hr, hL, fun v hv => ?_⟩
  rw [← hsz] at hv ⊢
  refine ((h1 L hL).mean ⟨1, (hS 1).2 .one⟩ (fun h => r.mat (Interp.elem W custom g h)) (fun h hh => Rep.mat_unit (elem_unit (custom := custom) ok ho ((hS h).1 hh)) hwf)
    (fun p hp q hq => (hS _).2 (((hS p).1 hp).mul ((hS q).1 hq))) (fun p hp q hq => elem_mul ok hwf ((hS p).1 hp) ((hS q).1 hq)) (fun p hp q _ q' _ h => ?_)
    (fun u hu => (fixed_iff_group ok ⟨hwf, hk⟩ hu).trans ⟨fun h t ht => h t ((hS t).1 ht), fun h t ht => h t ((hS t).2 ht)⟩) hv).trans
    (meanOver_congr fun h hh => by rw [hm ℝ _ (elem_dual ok ((hS h).1 hh))])
  have := congrArg (p⁻¹ * ·) h
  simpa only [Matrix.nonsing_inv_mul_cancel_left _ _ (Generated.isUnit (ok.unit g) ((hS p).1 hp))] using this

/-- **C138.** For every group, finite or not and orthogonal or not, `equivariant_projector()` applied to a vector is invariant under the whole group, and no invariant
vector is nearer: for every expression, after any history of calls. -/
theorem C138_nearest (hW : W.SingleOK g N) (e : Expr) (he : e.OK W g) (hN : e.bound W g ≤ N) (ok : GroupsOK W custom lie disc)
    (hsol : SolverOK W (gensOf W (stdAtoms W custom) lie disc) solve)
    (htot : SolverRuns W (gensOf W (stdAtoms W custom) lie disc) solve) (calls : List SolveCall) :
    ∃ r L, e.eval W g = .ok r ∧
      (r.equivariantProjector W (gensOf W (stdAtoms W custom) lie disc) solve (session W (gensOf W (stdAtoms W custom) lie disc) solve calls freshSt)).1 = .ok L ∧
      ∀ v : List ℝ, v.length = e.dim W g →
        (∀ h, Generated (lie g) (disc g) h → (e.den g (Interp.elem W custom g h)).1.mulVec (L.sem.mulVec v) = L.sem.mulVec v) ∧
        ∀ u : List ℝ, u.length = e.dim W g → (∀ h, Generated (lie g) (disc g) h → (e.den g (Interp.elem W custom g h)).1.mulVec u = u) →
          ∑ i ∈ Finset.range (e.dim W g), (v.getD i 0 - (L.sem.mulVec v).getD i 0) ^ 2 ≤ ∑ i ∈ Finset.range (e.dim W g), (v.getD i 0 - u.getD i 0) ^ 2 := by
  obtain ⟨r, hr, hwf, hk, hsz, hm⟩ := e.eval_good hW he hN
  obtain ⟨h1, h2⟩ := C22_equivariant_projector (fun _ => rfl) (gensOf_dual ok).sized hsol hwf (Rep.single_onePerGroup hwf hk) calls
  obtain ⟨L, hL⟩ := h2 htot
  have hP := h1 L hL
  refine ⟨r, L, hr, hL, fun v hv => ?_⟩
  rw [← hsz] at hv ⊢
  refine ⟨fun h hh => ?_, fun u hu hf => hP.nearest hv hu ((fixed_iff_group ok ⟨hwf, hk⟩ hu).2 fun h hh => by rw [hm ℝ _ (elem_dual ok hh)]; exact hf h hh)⟩
  rw [← hm ℝ _ (elem_dual ok hh)]
  exact (fixed_iff_group ok ⟨hwf, hk⟩ (by rw [DMat.length_mulVec, hP.sq.1])).1 (hP.range v hv) h hh

/-- **C138.** For a finite orthogonal group, a Linear layer with weight `w` and bias `b` is the mean over the group of the plain layer `f(x) = wx+b` with the same
parameters, `ρ_out(h) f(ρ_in(h)⁻¹ x)`. -/
theorem C138_linear (hW : W.SingleOK g N) (ok : GroupsOK W custom lie disc) (ho : W.orth g = true)
    (S : Finset (Matrix (Fin (W.d g)) (Fin (W.d g)) ℝ)) (hS : ∀ h, h ∈ S ↔ Generated (lie g) (disc g) h)
    (hsol : SolverOK W (gensOf W (stdAtoms W custom) lie disc) solve) {a o : Rep} (ha : a.Over W g N) (hoo : o.Over W g N) (hN : o.size W * a.size W ≤ N)
    {L : LinearL ℝ} (hL : L.Built W g (gensOf W (stdAtoms W custom) lie disc) solve a o) {w : DMat ℝ} {b x : List ℝ}
    (h1 : w.rows = o.size W) (h2 : w.cols = a.size W) (h3 : b.length = o.size W) (h4 : x.length = a.size W) :
    L.apply w b x = .ok (meanOver S (o.size W) fun h =>
      (o.mat (Interp.elem W custom g h)).mulVec (zipWith (· + ·) (w.mulVec ((a.mat (Interp.elem W custom g h⁻¹)).mulVec x)) b)) := by
  obtain ⟨σ, σ', hσ, hL⟩ := hL
  obtain ⟨nin, nout, ⟨r, hr, hz, hint, hPw⟩, hPb⟩ := (LinearL.init_exact hW gensOf_sized hsol ha hoo hN σ (hσ.ok hsol) L σ' hL).2
  have hne : S.Nonempty := ⟨1, (hS 1).2 .one⟩
  have hcl : ∀ p ∈ S, ∀ q ∈ S, p * q ∈ S := fun p hp q hq => (hS _).2 (((hS p).1 hp).mul ((hS q).1 hq))
  have hca : ∀ p ∈ S, ∀ q ∈ S, ∀ q' ∈ S, p * q = p * q' → q = q' := fun p hp q _ q' _ h => by
    have := congrArg (p⁻¹ * ·) h
    simpa only [Matrix.nonsing_inv_mul_cancel_left _ _ (Generated.isUnit (ok.unit g) ((hS p).1 hp))] using this
  have ua := fun {h} (hh : h ∈ S) => Rep.mat_unit (elem_unit (custom := custom) ok ho ((hS h).1 hh)) ha.wf
  have uo := fun {h} (hh : h ∈ S) => Rep.mat_unit (elem_unit (custom := custom) ok ho ((hS h).1 hh)) hoo.wf
  have kb : L.Pb.sem.mulVec b = meanOver S (o.size W) fun h => (o.mat (Interp.elem W custom g h)).mulVec b :=
    hPb.mean hne _ (fun h hh => uo hh) hcl (fun p hp q hq => elem_mul ok hoo.wf ((hS p).1 hp) ((hS q).1 hq)) hca
      (fun v hv => (fixed_iff_group ok hoo hv).trans ⟨fun h t ht => h t ((hS t).1 ht), fun h t ht => h t ((hS t).2 ht)⟩) h3
  have sand : ∀ h ∈ S, ∀ K : DMat ℝ, K.rows = o.size W → K.cols = a.size W →
      (DMat.kron (o.mat (Interp.elem W custom g h)) (a.mat (Interp.elem W custom g h))).mulVec K.flat =
        (((o.mat (Interp.elem W custom g h)).mul K).mul (a.mat (Interp.elem W custom g h⁻¹))).flat := fun h hh K k1 k2 => by
    rw [DMat.kron_mulVec_flat _ _ _ (by rw [(uo hh).sq.2, k1]) (by rw [(ua hh).sq.2, k2]), elem_inv ok ho ha.wf ((hS h).1 hh)]
  have kw : L.Pw.sem.mulVec w.flat = meanOver S (o.size W * a.size W) fun h => (((o.mat (Interp.elem W custom g h)).mul w).mul (a.mat (Interp.elem W custom g h⁻¹))).flat := by
    rw [← hz]
    refine (hPw.mean hne (fun h => DMat.kron (o.mat (Interp.elem W custom g h)) (a.mat (Interp.elem W custom g h))) (fun h hh => by rw [hz]; exact (uo hh).kron (ua hh)) hcl
      (fun p hp q hq => ?_) hca (fun v hv => ?_) (by rw [DMat.length_flat, h1, h2, hz])).trans (meanOver_congr fun h hh => sand h hh w h1 h2)
    · rw [elem_mul ok hoo.wf ((hS p).1 hp) ((hS q).1 hq), elem_mul ok ha.wf ((hS p).1 hp) ((hS q).1 hq),
        DMat.kron_mul _ _ _ _ (by rw [(uo hp).sq.2, (uo hq).sq.1]) (by rw [(ua hp).sq.2, (ua hq).sq.1])]
    · obtain ⟨K, hK⟩ : ∃ K, K = DMat.unflat (o.size W) (a.size W) v := ⟨_, rfl⟩
      have k1 : K.rows = o.size W := by rw [hK]; rfl
      have k2 : K.cols = a.size W := by rw [hK]; rfl
      have k3 : K.flat = v := by rw [hK]; exact DMat.unflat_flat (by rw [hv, hz])
      rw [fixed_iff_group ok hr hv, ← k3]
      have eq : ∀ h ∈ S, ((r.mat (Interp.elem W custom g h)).mulVec K.flat = K.flat ↔
          (DMat.kron (o.mat (Interp.elem W custom g h)) (a.mat (Interp.elem W custom g h))).mulVec K.flat = K.flat) := by
        intro h hh
        have hg := (hS h).1 hh
        have hi := (hS _).2 (Generated.inverse (ok.unit g) hg)
        rw [hint _ (elem_dual ok hg) K k1 k2, sand h hh K k1 k2]
        constructor
        · intro e
          rw [← e, DMat.mul_assoc' _ _ _ (by rw [k2, (ua hh).sq.1]), elem_mul_inv ok ho ha.wf hg, DMat.mul_one' _ k2]
        · intro e
          have e := DMat.flat_inj (by show (o.mat _).rows = _; rw [(uo hh).sq.1, k1]) (by show (a.mat _).cols = _; rw [(ua hi).sq.2, k2]) e
          conv_lhs => rw [← e]
          rw [DMat.mul_assoc' _ _ _ (by rw [DMat.mul_cols, k2, (ua hi).sq.1]), elem_inv_mul ok ho ha.wf hg, DMat.mul_one' _ (by rw [DMat.mul_cols, k2])]
      exact ⟨fun h t ht => (eq t ht).1 (h t ((hS t).1 ht)), fun h t ht => (eq t ((hS t).2 ht)).2 (h t ((hS t).2 ht))⟩
  unfold LinearL.apply
  rw [if_pos ⟨by rw [h1, nout], by rw [h2, nin], by rw [h3, nout], by rw [h4, nin]⟩, h1, h2, kw, kb]
  dsimp only
  rw [unflat_meanOver, meanOver_add (fun h hh => by rw [DMat.length_mulVec]; rfl) fun h hh => by rw [DMat.length_mulVec, (uo hh).sq.1]]
  refine congrArg Except.ok (meanOver_congr fun h hh => ?_)
  have hi := (hS _).2 (Generated.inverse (ok.unit g) ((hS h).1 hh))
  have e1 : DMat.unflat (o.size W) (a.size W) (((o.mat (Interp.elem W custom g h)).mul w).mul (a.mat (Interp.elem W custom g h⁻¹))).flat =
      ((o.mat (Interp.elem W custom g h)).mul w).mul (a.mat (Interp.elem W custom g h⁻¹)) := by
    refine DMat.flat_inj (by show _ = (o.mat _).rows; rw [(uo hh).sq.1]; rfl) (by show _ = (a.mat _).cols; rw [(ua hi).sq.2]; rfl) (DMat.unflat_flat ?_)
    rw [DMat.length_flat, DMat.mul_rows, DMat.mul_rows, DMat.mul_cols, (uo hh).sq.1, (ua hi).sq.2]
  rw [e1, DMat.mulVec_mul _ _ _ (by rw [DMat.mul_cols, h2, (ua hi).sq.1]), DMat.mulVec_mul _ _ _ (by rw [(uo hh).sq.2, h1]),
    DMat.mulVec_add _ (by rw [DMat.length_mulVec, h1, h3])]

end

/-- The hypotheses are met by `S(3)`, with its six elements and a layer between vectors: the projector and the layer average over the permutations. -/
example : ∃ (G : Grp) (S : Finset (Matrix (Fin 3) (Fin 3) ℝ)) (solve : ℕ → LinOp ℝ → Py (DMat ℝ)) (r : Rep) (P : LinOp ℝ) (L : LinearL ℝ), symGroup 3 = .ok G ∧ S.card = 6 ∧
    (∀ h, h ∈ S ↔ Generated [] (G.disc.map (denseGen 3)) h) ∧ (Expr.rshift (.rep 0) (.rep 0)).eval setsW 0 = .ok r ∧
    (r.equivariantProjector setsW (gensOf setsW (stdAtoms setsW fun k g => trivialAtom _ _) (fun _ => []) fun _ => G.disc.map (denseGen 3)) solve
      (session setsW (gensOf setsW (stdAtoms setsW fun k g => trivialAtom _ _) (fun _ => []) fun _ => G.disc.map (denseGen 3)) solve [] freshSt)).1 = .ok P ∧
    (∀ v : List ℝ, v.length = 9 → P.sem.mulVec v = meanOver S 9 fun h =>
      ((Expr.rshift (.rep 0) (.rep 0)).den 0 (Interp.elem setsW (fun k g => trivialAtom _ _) 0 h)).1.mulVec v) ∧
    L.Built setsW 0 (gensOf setsW (stdAtoms setsW fun k g => trivialAtom _ _) (fun _ => []) fun _ => G.disc.map (denseGen 3)) solve
      (.key (.fac (.atom (.vec 0 (some 0))))) (.key (.fac (.atom (.vec 0 (some 0))))) ∧
    (Rep.key (.fac (.atom (.vec 0 (some 0))))).Over setsW 0 9 := by
  classical
  obtain ⟨s, s1, s2⟩ := exists_solver ℝ
  obtain ⟨G, h1, -, h3, -, hgen⟩ := C54_symmetric 3 (by norm_num)
  have ok := sets_groups (G := G) fun h hh => (hgen h).1 (.gen hh)
  obtain ⟨S, hSd⟩ : ∃ S, S = (Finset.univ : Finset (Equiv.Perm (Fin 3))).image (fun σ => σ.permMatrix ℝ) := ⟨_, rfl⟩
  have hS : ∀ h, h ∈ S ↔ Generated [] (G.disc.map (denseGen 3)) h := fun h => by
    rw [hgen, hSd]
    simp [eq_comm]
  obtain ⟨r, P, e1, e2, e3⟩ := C138_projector (W := setsW) (lie := fun _ => []) (disc := fun _ => G.disc.map (denseGen 3)) (custom := fun k g => trivialAtom _ _)
    (g := 0) setsW_single (.rshift (.rep 0) (.rep 0)) (by simp [Expr.OK, World.asize, setsW]) (by decide) ok rfl S hS (s1 _ _) (fun _ _ C _ => s2 C) []
  have hr : (Rep.key (.fac (.atom (.vec 0 (some 0))))).Over setsW 0 9 :=
    ⟨rfl, by intro k hk; rw [show k = .fac (.atom (.vec 0 (some 0))) by simpa [Rep.keys, Key.base, Fac.base] using hk]; exact ⟨by decide, .inl ⟨rfl, 0, rfl⟩, by decide⟩⟩
  have hσ : NetReach setsW 0 (gensOf setsW (stdAtoms setsW fun k g => trivialAtom _ _) (fun _ => []) fun _ => G.disc.map (denseGen 3)) (fun _ => s) ⟨freshSt, none, 0⟩ :=
    .start none 0 fun h e => by simp at e
  obtain ⟨L, τ, e⟩ := (C30_linear setsW_single ok (s1 _ _) hσ hr hr (by decide)).2 (fun _ _ C _ => s2 C)
  refine ⟨G, _, _, r, P, L, h1, ?_, hS, e1, e2, e3, ⟨_, _, hσ, e⟩, hr⟩
  rw [hSd, Finset.card_image_of_injective _ permMatrix_injective, Finset.card_univ, Fintype.card_perm]
  rfl

end Verif
