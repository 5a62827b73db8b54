import Verif.Spec.Frame
import Verif.Lemmas.RepUnit
import Verif.Lemmas.LayerComplete
import Verif.Lemmas.DualGens
import Verif.Props.Threads
import Verif.Props.Layers

/-! Changes of coordinates. -/
namespace Verif
open List

section
variable {W : World} {g : Gid} {T : ∀ k, Matrix (Fin (W.asize k g)) (Fin (W.asize k g)) ℝ}

theorem frame_vec_same (k : ℕ) : ((Interp.frame W g T).vec k (some g)).sem = DMat.ofMatrix (T k) := by
  show (if g = g then _ else _) = _
  rw [if_pos rfl]

theorem frame_dual_same (k : ℕ) : ((Interp.frame W g T).dual k (some g)).sem = DMat.ofMatrix (T k)⁻¹.transpose := by
  show (if g = g then _ else _) = _
  rw [if_pos rfl]

theorem frame_vec_ne {g' : Gid} (e : g' ≠ g) (k : ℕ) : ((Interp.frame W g T).vec k (some g')).sem = DMat.one (W.asize k g') := by
  show (if g' = g then _ else _) = _
  rw [if_neg e]

theorem frame_dual_ne {g' : Gid} (e : g' ≠ g) (k : ℕ) : ((Interp.frame W g T).dual k (some g')).sem = DMat.one (W.asize k g') := by
  show (if g' = g then _ else _) = _
  rw [if_neg e]

theorem frame_sized : (Interp.frame W g T).Sized W where
  vec k g' := by
    by_cases e : g' = g
    · subst e; rw [frame_vec_same]; exact ⟨rfl, rfl⟩
    · rw [frame_vec_ne e]; exact ⟨rfl, rfl⟩
  dual k g' := by
    by_cases e : g' = g
    · subst e; rw [frame_dual_same]; exact ⟨rfl, rfl⟩
    · rw [frame_dual_ne e]; exact ⟨rfl, rfl⟩

theorem frame_isDual (hT : ∀ k, IsUnit (T k).det) (ho : W.orth g = true → ∀ k, (T k).transpose * T k = 1) : (Interp.frame W g T).Dual W where
  toSized := frame_sized
  inv k g' := by
    by_cases e : g' = g
    · subst e
      rw [frame_vec_same, frame_dual_same, ← DMat.ofMatrix_transpose, Matrix.transpose_transpose, ← DMat.ofMatrix_mul,
        Matrix.nonsing_inv_mul _ (hT k), DMat.ofMatrix_one]
    · rw [frame_vec_ne e, frame_dual_ne e, DMat.mul_one' (n := W.asize k g') _ rfl, DMat.transpose_one]
  orth k g' h := by
    by_cases e : g' = g
    · subst e
      rw [frame_vec_same, ← DMat.ofMatrix_transpose, ← DMat.ofMatrix_mul, ho h k, DMat.ofMatrix_one]
    · rw [frame_vec_ne e, DMat.mul_one' (n := W.asize k g') _ rfl, DMat.transpose_one]

theorem conjTranspose_real (A : DMat ℝ) : A.conjTranspose = A.transpose :=
  DMat.ext rfl rfl fun i j _ _ => by rw [DMat.conjTranspose_e, DMat.transpose_e]; rfl

theorem frame_isUnit (ho : ∀ k, (T k).transpose * T k = 1) : (Interp.frame W g T).Unit W := by
  have hone : ∀ n, (DMat.one n : DMat ℝ).Unit n := DMat.unit_one
  have hT : ∀ k, (T k)⁻¹.transpose = T k := fun k => by
    rw [Matrix.inv_eq_left_inv (ho k), Matrix.transpose_transpose]
  have key : ∀ k, (DMat.ofMatrix (T k)).Unit (W.asize k g) := fun k =>
    ⟨⟨rfl, rfl⟩, by rw [conjTranspose_real, ← DMat.ofMatrix_transpose, ← DMat.ofMatrix_mul, ho k, DMat.ofMatrix_one]⟩
  constructor
  · intro k g'
    by_cases e : g' = g
    · subst e; rw [frame_vec_same]; exact key k
    · rw [frame_vec_ne e]; exact hone _
  · intro k g'
    by_cases e : g' = g
    · subst e; rw [frame_dual_same, hT]; exact key k
    · rw [frame_dual_ne e]; exact hone _

/-- Going back. -/
theorem frame_back (hT : ∀ k, IsUnit (T k).det) {r : Rep} (hr : r.WF W) :
    (r.mat (Interp.frame W g fun k => (T k)⁻¹)).mul (r.mat (Interp.frame W g T)) = DMat.one (r.size W) := by
  rw [← Rep.mat_mul (K := idI W ℝ) frame_sized frame_sized ?_ hr, Rep.mat_one idI_one hr]
  constructor
  · intro k g'
    by_cases e : g' = g
    · subst e
      rw [frame_vec_same, frame_vec_same, ← DMat.ofMatrix_mul, Matrix.nonsing_inv_mul _ (hT k), DMat.ofMatrix_one]; rfl
    · rw [frame_vec_ne e, frame_vec_ne e, DMat.mul_one' (n := W.asize k g') _ rfl]; rfl
  · intro k g'
    by_cases e : g' = g
    · subst e
      rw [frame_dual_same, frame_dual_same, ← DMat.ofMatrix_mul, ← Matrix.transpose_mul, ← Matrix.mul_inv_rev, Matrix.nonsing_inv_mul _ (hT k), inv_one,
        Matrix.transpose_one, DMat.ofMatrix_one]; rfl
    · rw [frame_dual_ne e, frame_dual_ne e, DMat.mul_one' (n := W.asize k g') _ rfl]; rfl

variable {custom custom' : ∀ k g, AtomRep ℝ (W.d g) (W.usize k g)} {lie disc lie' disc' : ∀ g, List (Matrix (Fin (W.d g)) (Fin (W.d g)) ℝ)}
  {P : Matrix (Fin (W.d g)) (Fin (W.d g)) ℝ}

theorem FrameOK.atoms (fr : FrameOK W g custom custom' lie disc lie' disc' P T) {h : Matrix (Fin (W.d g)) (Fin (W.d g)) ℝ}
    (hh : Generated (lie g) (disc g) h) : ∀ k, (stdAtoms W custom' k g).rho (P * h * P⁻¹) * T k = T k * (stdAtoms W custom k g).rho h
  | 0 => by
    have hz : (T 0 : Matrix (Fin (W.d g)) (Fin (W.d g)) ℝ) = P := fr.zero
    have hu : IsUnit P.det := by rw [← hz]; exact fr.unit 0
    have : P * h * P⁻¹ * P = P * h := by rw [Matrix.mul_assoc, Matrix.nonsing_inv_mul _ hu, Matrix.mul_one]
    rw [← hz] at this ⊢
    exact this
  | k + 1 => by
    rw [fr.user k h hh, Matrix.mul_assoc, Matrix.nonsing_inv_mul _ (fr.unit (k + 1)), Matrix.mul_one]

/-- The action of an element in the new coordinates. -/
theorem FrameOK.mat (fr : FrameOK W g custom custom' lie disc lie' disc' P T) {h : Matrix (Fin (W.d g)) (Fin (W.d g)) ℝ}
    (hh : Generated (lie g) (disc g) h) {r : Rep} (hr : r.WF W) :
    (r.mat (Interp.elem W custom' g (P * h * P⁻¹))).mul (r.mat (Interp.frame W g T)) =
      (r.mat (Interp.frame W g T)).mul (r.mat (Interp.elem W custom g h)) := by
  obtain ⟨K, hK1, hK2⟩ : ∃ K : Interp ℝ, K.IsMul (Interp.elem W custom' g (P * h * P⁻¹)) (Interp.frame W g T) ∧
      K.IsMul (Interp.frame W g T) (Interp.elem W custom g h) := by
    refine ⟨⟨fun k o => .lazy ((((Interp.elem W custom' g (P * h * P⁻¹)).vec k o).sem).mul ((Interp.frame W g T).vec k o).sem),
      fun k o => .lazy ((((Interp.elem W custom' g (P * h * P⁻¹)).dual k o).sem).mul ((Interp.frame W g T).dual k o).sem)⟩,
      ⟨fun _ _ => rfl, fun _ _ => rfl⟩, ?_⟩
    have e1 : ∀ (c : ∀ k g, AtomRep ℝ (W.d g) (W.usize k g)) (M : Matrix (Fin (W.d g)) (Fin (W.d g)) ℝ) k,
        ((Interp.elem W c g M).vec k (some g)).sem = DMat.ofMatrix ((stdAtoms W c k g).rho M) := fun c M k => by
      show DMat.ofMatrix ((stdAtoms W c k g).rho (oneAt W g M g)) = _
      rw [oneAt_same]
    have e2 : ∀ (c : ∀ k g, AtomRep ℝ (W.d g) (W.usize k g)) (M : Matrix (Fin (W.d g)) (Fin (W.d g)) ℝ) k,
        ((Interp.elem W c g M).dual k (some g)).sem = DMat.ofMatrix ((stdAtoms W c k g).rho M)⁻¹.transpose := fun c M k => by
      show DMat.ofMatrix ((stdAtoms W c k g).rho (oneAt W g M g))⁻¹.transpose = _
      rw [oneAt_same]
    have e3 : ∀ (c : ∀ k g, AtomRep ℝ (W.d g) (W.usize k g)) (M : Matrix (Fin (W.d g)) (Fin (W.d g)) ℝ) k g', g' ≠ g →
        ((Interp.elem W c g M).vec k (some g')).sem = DMat.one (W.asize k g') := fun c M k g' e => by
      show DMat.ofMatrix ((stdAtoms W c k g').rho (oneAt W g M g')) = _
      rw [oneAt_ne e, (stdAtoms W c k g').one, DMat.ofMatrix_one]
    have e4 : ∀ (c : ∀ k g, AtomRep ℝ (W.d g) (W.usize k g)) (M : Matrix (Fin (W.d g)) (Fin (W.d g)) ℝ) k g', g' ≠ g →
        ((Interp.elem W c g M).dual k (some g')).sem = DMat.one (W.asize k g') := fun c M k g' e => by
      show DMat.ofMatrix ((stdAtoms W c k g').rho (oneAt W g M g'))⁻¹.transpose = _
      rw [oneAt_ne e, (stdAtoms W c k g').one, inv_one, Matrix.transpose_one, DMat.ofMatrix_one]
    constructor
    · intro k g'
      show DMat.mul _ _ = _
      by_cases e : g' = g
      · subst e
        rw [frame_vec_same, e1, e1, ← DMat.ofMatrix_mul, ← DMat.ofMatrix_mul, fr.atoms hh k]
      · rw [frame_vec_ne e, e3 _ _ _ _ e, e3 _ _ _ _ e]
    · intro k g'
      show DMat.mul _ _ = _
      by_cases e : g' = g
      · subst e
        rw [frame_dual_same, e2, e2, ← DMat.ofMatrix_mul, ← DMat.ofMatrix_mul, ← Matrix.transpose_mul, ← Matrix.transpose_mul, ← Matrix.mul_inv_rev,
          ← Matrix.mul_inv_rev, fr.atoms hh k]
      · rw [frame_dual_ne e, e4 _ _ _ _ e, e4 _ _ _ _ e]
  exact (Rep.mat_mul (at_sized _) frame_sized hK1 hr).symm.trans (Rep.mat_mul frame_sized (at_sized _) hK2 hr)

/-- A vector is fixed by the first group when its new coordinates are fixed by the second. -/
theorem FrameOK.fixes (fr : FrameOK W g custom custom' lie disc lie' disc' P T) {r : Rep} (hr : r.WF W) {v : List ℝ} (hv : v.length = r.size W) :
    (∀ h, Generated (lie g) (disc g) h → (r.mat (Interp.elem W custom g h)).mulVec v = v) ↔
      ∀ h, Generated (lie' g) (disc' g) h →
        (r.mat (Interp.elem W custom' g h)).mulVec ((r.mat (Interp.frame W g T)).mulVec v) = (r.mat (Interp.frame W g T)).mulVec v := by
  have hP : IsUnit P.det := by have := fr.unit 0; rw [← (show (T 0 : Matrix (Fin (W.d g)) (Fin (W.d g)) ℝ) = P from fr.zero)]; exact this
  have sq := Rep.mat_sq (frame_sized (T := T)) hr
  have sq' := Rep.mat_sq (frame_sized (T := fun k => (T k)⁻¹)) hr
  have sqe : ∀ c h, (r.mat (Interp.elem W c g h)).IsSq (r.size W) := fun c h => Rep.mat_sq (at_sized _) hr
  constructor
  · intro hf h hh
    obtain ⟨h0, rfl⟩ : ∃ h0, h = P * h0 * P⁻¹ := ⟨P⁻¹ * h * P, by
      rw [← Matrix.mul_assoc, ← Matrix.mul_assoc, Matrix.mul_nonsing_inv _ hP, Matrix.one_mul, Matrix.mul_assoc, Matrix.mul_nonsing_inv _ hP, Matrix.mul_one]⟩
    rw [← DMat.mulVec_mul _ _ _ (by rw [(sqe _ _).2, sq.1]), fr.mat ((fr.conj _).2 hh) hr, DMat.mulVec_mul _ _ _ (by rw [(sqe _ _).1, sq.2]), hf _ ((fr.conj _).2 hh)]
  · intro hf h hh
    have h1 := hf _ ((fr.conj h).1 hh)
    rw [← DMat.mulVec_mul _ _ _ (by rw [(sqe _ _).2, sq.1]), fr.mat hh hr, DMat.mulVec_mul _ _ _ (by rw [(sqe _ _).1, sq.2])] at h1
    have h2 := congrArg (r.mat (Interp.frame W g fun k => (T k)⁻¹)).mulVec h1
    rw [← DMat.mulVec_mul _ (r.mat (Interp.frame W g T)) _ (by rw [sq'.2, sq.1]), ← DMat.mulVec_mul _ (r.mat (Interp.frame W g T)) v (by rw [sq'.2, sq.1]), frame_back fr.unit hr,
      DMat.mulVec_one _ (by rw [DMat.length_mulVec, (sqe _ _).1]), DMat.mulVec_one _ hv] at h2
    exact h2

end

/-! ## Projectors -/

theorem DMat.Unit.left_inv {n : ℕ} {S : DMat ℝ} (h : S.Unit n) : S.transpose.mul S = DMat.one n := by rw [← conjTranspose_real]; exact h.orth

theorem DMat.Unit.right_inv {n : ℕ} {S : DMat ℝ} (h : S.Unit n) : S.mul S.transpose = DMat.one n :=
  DMat.mul_eq_one_comm ⟨h.sq.2, h.sq.1⟩ h.sq h.left_inv

/-- The orthogonal projector onto the image of a space under an orthogonal map. -/
theorem IsProjector.move {n : ℕ} {Q Q' S : DMat ℝ} {F F' : List ℝ → Prop} (h : IsProjector n Q F) (h' : IsProjector n Q' F') (hS : S.Unit n)
    (hF : ∀ v : List ℝ, v.length = n → (F v ↔ F' (S.mulVec v))) {v : List ℝ} (hv : v.length = n) : Q'.mulVec (S.mulVec v) = S.mulVec (Q.mulVec v) := by
  have l := hS.left_inv
  have r := hS.right_inv
  have st : S.transpose.IsSq n := ⟨hS.sq.2, hS.sq.1⟩
  have back : ∀ w : List ℝ, w.length = n → S.mulVec (S.transpose.mulVec w) = w := fun w hw => by
    rw [← DMat.mulVec_mul _ _ _ (by rw [hS.sq.2, st.1]), r, DMat.mulVec_one _ hw]
  have forth : ∀ w : List ℝ, w.length = n → S.transpose.mulVec (S.mulVec w) = w := fun w hw => by
    rw [← DMat.mulVec_mul _ _ _ (by rw [hS.sq.1, st.2]), l, DMat.mulVec_one _ hw]
  have len : ∀ (A : DMat ℝ), A.IsSq n → ∀ w, (A.mulVec w).length = n := fun A hA w => by rw [DMat.length_mulVec, hA.1]
  have app : ∀ w : List ℝ, ((S.mul Q).mul S.transpose).mulVec w = S.mulVec (Q.mulVec (S.transpose.mulVec w)) := fun w => by
    rw [DMat.mulVec_mul _ _ _ (by rw [DMat.mul_cols, h.sq.2, st.1]), DMat.mulVec_mul _ _ _ (by rw [hS.sq.2, h.sq.1])]
  have hsq : ((S.mul Q).mul S.transpose).IsSq n := ⟨hS.sq.1, hS.sq.1⟩
  have hp : IsProjector n ((S.mul Q).mul S.transpose) F' := by
    refine ⟨hsq, ?_, ?_, fun w hw => ?_, fun w hw => ?_⟩
    · refine DMat.ext_of_mulVec (n := n) ⟨hS.sq.1, hS.sq.1⟩ hsq fun w hw => ?_
      rw [DMat.mulVec_mul _ _ _ (by rw [hsq.2, hsq.1]), app, app, forth _ (len _ h.sq _), ← DMat.mulVec_mul Q Q _ (by rw [h.sq.1, h.sq.2]), h.idem]
    · have hQ := h.herm
      rw [conjTranspose_real] at hQ ⊢
      rw [DMat.transpose_mul _ _ (by rw [DMat.mul_cols, h.sq.2, st.1]), DMat.transpose_mul _ _ (by rw [hS.sq.2, h.sq.1]), hQ, DMat.transpose_transpose,
        DMat.mul_assoc' _ _ _ (by rw [hS.sq.2, h.sq.1])]
    · rw [app]
      have h1 := hF (S.transpose.mulVec w) (len _ st _)
      rw [back w hw] at h1
      rw [← h1, h.fix _ (len _ st _)]
      constructor
      · intro e; rw [e, back w hw]
      · intro e
        have := congrArg S.transpose.mulVec e
        rwa [forth _ (len _ h.sq _)] at this
    · rw [app]
      exact (hF _ (len _ h.sq _)).1 (h.range _ (len _ st _))
  rw [h'.unique hp, app, forth v hv]

/-! ## Layers -/
section
variable {W : World} {g : Gid} {N : ℕ} {T : ∀ k, Matrix (Fin (W.asize k g)) (Fin (W.asize k g)) ℝ}
  {custom custom' : ∀ k g, AtomRep ℝ (W.d g) (W.usize k g)} {lie disc lie' disc' : ∀ g, List (Matrix (Fin (W.d g)) (Fin (W.d g)) ℝ)}
  {P : Matrix (Fin (W.d g)) (Fin (W.d g)) ℝ} {a b : Rep}

/-- What the generators fix is what the group fixes. -/
theorem fixed_iff_group (ok : GroupsOK W custom lie disc) {r : Rep} (hr : r.Over W g N) {v : List ℝ} (hv : v.length = r.size W) :
    r.Fixed W (gensOf W (stdAtoms W custom) lie disc) v ↔ ∀ h, Generated (lie g) (disc g) h → (r.mat (Interp.elem W custom g h)).mulVec v = v :=
  ⟨fun hf _ hh => fixed_one_group (stdAtoms_hom ok.hom) ok.unit hr.wf hv hf g hh, fun hf => fixed_of_group (stdAtoms_hom ok.hom) hr hv hf⟩

/-- The projector of the biases in the new coordinates. -/
theorem FrameOK.bias (fr : FrameOK W g custom custom' lie disc lie' disc' P T) (ok : GroupsOK W custom lie disc) (ok' : GroupsOK W custom' lie' disc')
    (ho : ∀ k, (T k).transpose * T k = 1) (hb : b.Over W g N) {Q Q' : DMat ℝ}
    (h : IsProjector (b.size W) Q (b.Fixed W (gensOf W (stdAtoms W custom) lie disc)))
    (h' : IsProjector (b.size W) Q' (b.Fixed W (gensOf W (stdAtoms W custom') lie' disc'))) {v : List ℝ} (hv : v.length = b.size W) :
    Q'.mulVec ((b.mat (Interp.frame W g T)).mulVec v) = (b.mat (Interp.frame W g T)).mulVec (Q.mulVec v) := by
  have hu := Rep.mat_unit (frame_isUnit ho) hb.wf
  refine h.move h' hu (fun v hv => ?_) hv
  rw [fixed_iff_group ok hb hv, fixed_iff_group ok' hb (by rw [DMat.length_mulVec, hu.sq.1]), fr.fixes hb.wf hv]

/-- A matrix commutes with the first group when, in the new coordinates, it commutes with the second. -/
theorem FrameOK.commutes (fr : FrameOK W g custom custom' lie disc lie' disc' P T) (ho : ∀ k, (T k).transpose * T k = 1) (ha : a.WF W) (hb : b.WF W) {M : DMat ℝ} (hM : M.rows = b.size W)
    (hM' : M.cols = a.size W) :
    (∀ h, Generated (lie g) (disc g) h → M.mul (a.mat (Interp.elem W custom g h)) = (b.mat (Interp.elem W custom g h)).mul M) ↔
      ∀ h, Generated (lie' g) (disc' g) h → (((b.mat (Interp.frame W g T)).mul M).mul (a.mat (Interp.frame W g T)).transpose).mul (a.mat (Interp.elem W custom' g h)) =
        (b.mat (Interp.elem W custom' g h)).mul (((b.mat (Interp.frame W g T)).mul M).mul (a.mat (Interp.frame W g T)).transpose) := by
  have hP : IsUnit P.det := by have := fr.unit 0; rw [← (show (T 0 : Matrix (Fin (W.d g)) (Fin (W.d g)) ℝ) = P from fr.zero)]; exact this
  have hu := Rep.mat_unit (frame_isUnit ho) ha
  have hv := Rep.mat_unit (frame_isUnit ho) hb
  have key : ∀ h, Generated (lie g) (disc g) h → (M.mul (a.mat (Interp.elem W custom g h)) = (b.mat (Interp.elem W custom g h)).mul M ↔
      (((b.mat (Interp.frame W g T)).mul M).mul (a.mat (Interp.frame W g T)).transpose).mul (a.mat (Interp.elem W custom' g (P * h * P⁻¹))) =
        (b.mat (Interp.elem W custom' g (P * h * P⁻¹))).mul (((b.mat (Interp.frame W g T)).mul M).mul (a.mat (Interp.frame W g T)).transpose)) := by
    intro h hh
    have ea := fr.mat hh ha
    have eb := fr.mat hh hb
    have sa : (a.mat (Interp.elem W custom g h)).IsSq (a.size W) := Rep.mat_sq (at_sized _) ha
    have sb : (b.mat (Interp.elem W custom g h)).IsSq (b.size W) := Rep.mat_sq (at_sized _) hb
    have sa' : (a.mat (Interp.elem W custom' g (P * h * P⁻¹))).IsSq (a.size W) := Rep.mat_sq (at_sized _) ha
    have sb' : (b.mat (Interp.elem W custom' g (P * h * P⁻¹))).IsSq (b.size W) := Rep.mat_sq (at_sized _) hb
    generalize a.mat (Interp.elem W custom' g (P * h * P⁻¹)) = A' at *
    generalize b.mat (Interp.elem W custom' g (P * h * P⁻¹)) = B' at *
    generalize a.mat (Interp.elem W custom g h) = A at *
    generalize b.mat (Interp.elem W custom g h) = B at *
    generalize a.mat (Interp.frame W g T) = U at *
    generalize b.mat (Interp.frame W g T) = V at *
    have l := hu.left_inv
    have r := hu.right_inv
    have lv := hv.left_inv
    have ut : U.transpose.IsSq (a.size W) := ⟨hu.sq.2, hu.sq.1⟩
    have vt : V.transpose.IsSq (b.size W) := ⟨hv.sq.2, hv.sq.1⟩
    -- `Uᵀ A' = A Uᵀ`
    have e1 : U.transpose.mul A' = A.mul U.transpose := by
      have : (U.transpose.mul (A'.mul U)).mul U.transpose = (U.transpose.mul (U.mul A)).mul U.transpose := by rw [ea]
      rw [← DMat.mul_assoc' _ _ _ (by rw [ut.2, sa'.1]), DMat.mul_assoc' _ _ _ (by rw [DMat.mul_cols, sa'.2, hu.sq.1]), r,
        DMat.mul_one' _ (by rw [DMat.mul_cols, sa'.2]), ← DMat.mul_assoc' _ _ _ (by rw [ut.2, hu.sq.1]), l, DMat.one_mul' _ sa.1] at this
      exact this
    have e2 : ((V.mul M).mul U.transpose).mul A' = (V.mul (M.mul A)).mul U.transpose := by
      rw [DMat.mul_assoc' (V.mul M) U.transpose A' (by rw [DMat.mul_cols, hM', ut.1]), e1, ← DMat.mul_assoc' (V.mul M) A U.transpose (by rw [DMat.mul_cols, hM', sa.1]),
        DMat.mul_assoc' V M A (by rw [hv.sq.2, hM])]
    have e3 : B'.mul ((V.mul M).mul U.transpose) = (V.mul (B.mul M)).mul U.transpose := by
      rw [← DMat.mul_assoc' B' (V.mul M) U.transpose (by rw [sb'.2, DMat.mul_rows, hv.sq.1]), ← DMat.mul_assoc' B' V M (by rw [sb'.2, hv.sq.1]), eb,
        DMat.mul_assoc' V B M (by rw [hv.sq.2, sb.1])]
    rw [e2, e3]
    constructor
    · intro e; rw [e]
    · intro e
      have back : ∀ X : DMat ℝ, X.rows = b.size W → X.cols = a.size W → (V.transpose.mul ((V.mul X).mul U.transpose)).mul U = X := fun X h1 h2 => by
        rw [← DMat.mul_assoc' V.transpose (V.mul X) U.transpose (by rw [vt.2, DMat.mul_rows, hv.sq.1]), ← DMat.mul_assoc' V.transpose V X (by rw [vt.2, hv.sq.1]), lv,
          DMat.one_mul' _ h1, DMat.mul_assoc' X U.transpose U (by rw [h2, ut.1]), l, DMat.mul_one' _ h2]
      have := congrArg (fun X => (V.transpose.mul X).mul U) e
      beta_reduce at this
      rwa [back _ (by rw [DMat.mul_rows, hM]) (by rw [DMat.mul_cols, sa.2]), back _ (by rw [DMat.mul_rows, sb.1]) (by rw [DMat.mul_cols, hM'])] at this
  constructor
  · intro hf h hh
    obtain ⟨h0, rfl⟩ : ∃ h0, h = P * h0 * P⁻¹ := ⟨P⁻¹ * h * P, by
      rw [← Matrix.mul_assoc, ← Matrix.mul_assoc, Matrix.mul_nonsing_inv _ hP, Matrix.one_mul, Matrix.mul_assoc, Matrix.mul_nonsing_inv _ hP, Matrix.mul_one]⟩
    exact (key h0 ((fr.conj h0).2 hh)).1 (hf h0 ((fr.conj h0).2 hh))
  · intro hf h hh
    exact (key h hh).2 (hf _ ((fr.conj h).1 hh))

/-- **A linear layer in the new coordinates.** -/
theorem FrameOK.linear (fr : FrameOK W g custom custom' lie disc lie' disc' P T) (ok : GroupsOK W custom lie disc) (ok' : GroupsOK W custom' lie' disc')
    (ho : ∀ k, (T k).transpose * T k = 1) (ha : a.Over W g N) (hb : b.Over W g N) {L L' : LinearL ℝ}
    (h : L.Exact W g N (gensOf W (stdAtoms W custom) lie disc) a b) (h' : L'.Exact W g N (gensOf W (stdAtoms W custom') lie' disc') a b)
    {w : DMat ℝ} {β : List ℝ} (hw : w.rows = b.size W) (hw' : w.cols = a.size W) (hβ : β.length = b.size W) {x : List ℝ} (hx : x.length = a.size W) :
    ∃ y, L.apply w β x = .ok y ∧ y.length = b.size W ∧
      L'.apply (((b.mat (Interp.frame W g T)).mul w).mul (a.mat (Interp.frame W g T)).transpose) ((b.mat (Interp.frame W g T)).mulVec β)
        ((a.mat (Interp.frame W g T)).mulVec x) = .ok ((b.mat (Interp.frame W g T)).mulVec y) := by
  have hu := Rep.mat_unit (frame_isUnit ho) ha.wf
  have hv := Rep.mat_unit (frame_isUnit ho) hb.wf
  have hcm := fun {M : DMat ℝ} => fr.commutes (M := M) ho ha.wf hb.wf
  have hbias := fr.bias ok ok' ho hb h.b h'.b hβ
  obtain ⟨r, hr, hz, hint, hp⟩ := h.w
  obtain ⟨r', hr', hz', hint', hp'⟩ := h'.w
  have fx : ∀ M : DMat ℝ, M.rows = b.size W → M.cols = a.size W → (r.Fixed W (gensOf W (stdAtoms W custom) lie disc) M.flat ↔
      ∀ h, Generated (lie g) (disc g) h → M.mul (a.mat (Interp.elem W custom g h)) = (b.mat (Interp.elem W custom g h)).mul M) := fun M h1 h2 => by
    rw [fixed_iff_group ok hr (by rw [DMat.length_flat, h1, h2, hz])]
    exact forall₂_congr fun h hh => hint _ (elem_dual ok hh) M h1 h2
  have fx' : ∀ M : DMat ℝ, M.rows = b.size W → M.cols = a.size W → (r'.Fixed W (gensOf W (stdAtoms W custom') lie' disc') M.flat ↔
      ∀ h, Generated (lie' g) (disc' g) h → M.mul (a.mat (Interp.elem W custom' g h)) = (b.mat (Interp.elem W custom' g h)).mul M) := fun M h1 h2 => by
    rw [fixed_iff_group ok' hr' (by rw [DMat.length_flat, h1, h2, hz'])]
    exact forall₂_congr fun h hh => hint' _ (elem_dual ok' hh) M h1 h2
  have hsq := hp.sq
  have hsq' := hp'.sq
  rw [hz] at hp hsq
  rw [hz'] at hp' hsq'
  generalize a.mat (Interp.frame W g T) = U at *
  generalize b.mat (Interp.frame W g T) = V at *
  have fl : ∀ M : DMat ℝ, M.rows = b.size W → M.cols = a.size W → (DMat.kron V U).mulVec M.flat = ((V.mul M).mul U.transpose).flat := fun M h1 h2 =>
    DMat.kron_mulVec_flat U V M (by rw [hv.sq.2, h1]) (by rw [hu.sq.2, h2])
  have hmove : ∀ v : List ℝ, v.length = b.size W * a.size W → L'.Pw.sem.mulVec ((DMat.kron V U).mulVec v) = (DMat.kron V U).mulVec (L.Pw.sem.mulVec v) := fun v hv' => by
    refine hp.move hp' (hv.kron hu) (fun v hv' => ?_) hv'
    rw [← DMat.unflat_flat hv', fl _ rfl rfl, fx _ rfl rfl, fx' ((V.mul (DMat.unflat (b.size W) (a.size W) v)).mul U.transpose) hv.sq.1 hu.sq.1]
    exact hcm rfl rfl
  obtain ⟨M, hM⟩ : ∃ M, M = DMat.unflat w.rows w.cols (L.Pw.sem.mulVec w.flat) := ⟨_, rfl⟩
  have hM1 : M.rows = b.size W := by rw [hM]; exact hw
  have hM2 : M.cols = a.size W := by rw [hM]; exact hw'
  have hfl : M.flat = L.Pw.sem.mulVec w.flat := by
    rw [hM]; exact DMat.unflat_flat (by rw [DMat.length_mulVec, hsq.1, hw, hw'])
  have ev : L.apply w β x = .ok (zipWith (· + ·) (M.mulVec x) (L.Pb.sem.mulVec β)) := by
    unfold LinearL.apply
    rw [if_pos ⟨by rw [hw, h.nout], by rw [hw', h.nin], by rw [hβ, h.nout], by rw [hx, h.nin]⟩, hM]
  have hM' : DMat.unflat ((V.mul w).mul U.transpose).rows ((V.mul w).mul U.transpose).cols (L'.Pw.sem.mulVec ((V.mul w).mul U.transpose).flat) = (V.mul M).mul U.transpose := by
    rw [← fl w hw hw', hmove _ (by rw [DMat.length_flat, hw, hw']), ← hfl, fl M hM1 hM2]
    exact DMat.flat_inj rfl rfl (DMat.unflat_flat (by rw [DMat.length_flat]; rfl))
  have ev' : L'.apply ((V.mul w).mul U.transpose) (V.mulVec β) (U.mulVec x) = .ok (zipWith (· + ·) (((V.mul M).mul U.transpose).mulVec (U.mulVec x)) (L'.Pb.sem.mulVec (V.mulVec β))) := by
    unfold LinearL.apply
    rw [if_pos ⟨by rw [h'.nout]; exact hv.sq.1, by rw [h'.nin]; exact hu.sq.1, by rw [DMat.length_mulVec, hv.sq.1, h'.nout],
      by rw [DMat.length_mulVec, hu.sq.1, h'.nin]⟩, hM']
  refine ⟨_, ev, by simp [hM1, h.b.sq.1], ?_⟩
  rw [ev', DMat.mulVec_add _ (by simp [hM1, h.b.sq.1]), hbias, DMat.mulVec_mul _ _ _ (by rw [DMat.mul_cols, hM2]; exact hu.sq.2.symm),
    ← DMat.mulVec_mul U.transpose U _ (by rw [hu.sq.1]; exact hu.sq.1), hu.left_inv, DMat.mulVec_one _ hx, DMat.mulVec_mul _ _ _ (by rw [hv.sq.2, hM1])]

end

end Verif
