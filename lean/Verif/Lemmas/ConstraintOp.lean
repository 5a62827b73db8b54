import Verif.Lemmas.RhoOp
import Verif.Lemmas.Solver

/-! The operator built by `constraint_matrix` stands for the matrix of `Verif.Model.Solver`. -/
namespace Verif
open List

section
variable {R : Type} [CommRing R] [StarRing R]

theorem Op.lazify_ok {X : Op R} {A : DMat R} (h : X.Stands A) : X.lazify.Stands A ∧ X.lazify.asArr = none := by
  match X, h with
  | .arr B, h => exact ⟨⟨by simp only [Op.lazify, Op.asArr, Op.WF], by simp only [Op.lazify, Op.asArr, Op.den]; have := h.2; rwa [Op.den] at this⟩, rfl⟩
  | .lazy _, h | .eye _, h | .kron _, h | .kronsum _, h | .concat _, h | .dsum _, h | .perm _, h | .shift _ _, h | .rot90 _ _, h | .jvp _, h
  | .closure _ _ _ _ _, h | .noMatvec _ _, h | .selfRef _ _, h | .add _ _, h | .mul _ _, h | .smul _ _, h | .pow _ _, h
  | .adj _, h | .tr _, h => exact ⟨h, rfl⟩

theorem Op.minus_eye_ok {X : Op R} {A : DMat R} {n : ℕ} (h : X.Stands A) (ha : X.asArr = none) (hA : A.IsSq n) :
    ∃ Y, (do let J ← Op.mkScale (-1) (.eye n); Op.mkAdd X J) = .ok Y ∧ Y.Stands (A.add (DMat.smul (-1) (DMat.one n))) := by
  refine ⟨.add X (.smul (-1) (.eye n)), ?_, ?_, ?_⟩
  · have hs : (Op.smul (-1) (.eye n) : Op R).shape = (n, n) := by
      rw [Op.shape_eq (by simp only [Op.WF]; exact ⟨trivial, rfl⟩)]; simp only [Op.den]; rfl
    show Op.mkAdd X (.smul (-1) (.eye n)) = _
    rw [Op.mkAdd, ha, if_neg (by simp [Op.asArr]), hs, Op.shape_eq h.1, h.2, hA.1, hA.2, if_pos rfl]
  · simp only [Op.WF, Op.den]
    exact ⟨h.1, ⟨trivial, rfl⟩, by rw [h.2, hA.1]; rfl, by rw [h.2, hA.2]; rfl, ha, rfl⟩
  · simp only [Op.den]; rw [h.2]

theorem mapM_forall₂' {α γ β : Type} {f : α → Py β} {P : γ → β → Prop} {l : List α} {l' : List γ}
    (h : Forall₂ (fun a c => ∃ y, f a = .ok y ∧ P c y) l l') : ∃ ys, l.mapM f = .ok ys ∧ Forall₂ P l' ys := by
  induction h with
  | nil => exact ⟨[], rfl, .nil⟩
  | cons h _ ih =>
    obtain ⟨y, h1, h2⟩ := h
    obtain ⟨ys, i1, i2⟩ := ih
    exact ⟨y :: ys, by simp [mapM_cons, h1, i1, bind, Except.bind, pure, Except.pure], .cons h2 i2⟩

end

variable {F : Type} [Field F] [StarRing F] [DecidableEq F] {W : World} {inv : DMat F → Py (DMat F)} {gens : Gid → GenSet F}

theorem Fac.constraintOp_ok (hinv : Op.InvSpec inv) (hs : GenSet.Dual W gens) {f : Fac} (hf : f.WF W) (hd : f.Deep W) {g : Gid} (hg : f.G = some g)
    {disc lie : List (OpInterp F)} (h1 : Forall₂ (fun I J => I.Of J ∧ I.Inv W) disc (gens g).disc)
    (h2 : Forall₂ (fun I J => I.Of J ∧ I.Rev W) lie (gens g).lie) :
    ∃ X C, f.constraintOp inv W disc lie = .ok X ∧ f.constraintMatrix W gens = .ok C ∧ X.Stands C.sem := by
  have k1 : Forall₂ (fun I J => ∃ Y, (do
      let X ← f.rhoOp inv I
      let J ← Op.mkScale (-1) (.eye (f.size W))
      Op.mkAdd X.lazify J) = .ok Y ∧ (Y.Stands ((f.rho J).sem.add (DMat.smul (-1) (DMat.one (f.size W)))) ∧ (f.rho J).sem.IsSq (f.size W))) disc (gens g).disc := by
    have : ∀ J ∈ (gens g).disc, J.Dual W := (hs g).1
    generalize (gens g).disc = l at h1 this
    induction h1 with
    | nil => exact .nil
    | cons h _ ih =>
      refine .cons ?_ (ih fun J hJ => this J (by simp [hJ]))
      have hJ := this _ mem_cons_self
      obtain ⟨X, x1, x2⟩ := Fac.rhoOp_ok hinv hJ h.1 h.2 hf hd
      obtain ⟨l1, l2⟩ := Op.lazify_ok x2
      have hsq := Fac.rho_sq hJ.toSized hf
      obtain ⟨Y, y1, y2⟩ := Op.minus_eye_ok l1 l2 hsq
      exact ⟨Y, by rw [x1]; exact y1, y2, hsq⟩
  have k2 : Forall₂ (fun I J => ∃ Y, (do let X ← f.drhoOp I; Except.ok X.lazify) = .ok Y ∧ (Y.Stands (f.drho J).sem ∧ (f.drho J).sem.IsSq (f.size W)))
      lie (gens g).lie := by
    have : ∀ J ∈ (gens g).lie, J.DDual W := (hs g).2
    generalize (gens g).lie = l at h2 this
    induction h2 with
    | nil => exact .nil
    | cons h _ ih =>
      refine .cons ?_ (ih fun J hJ => this J (by simp [hJ]))
      have hJ := this _ mem_cons_self
      obtain ⟨X, x1, x2⟩ := Fac.drhoOp_ok hJ h.1 h.2 hf hd
      exact ⟨_, by rw [x1]; rfl, (Op.lazify_ok x2).1, Fac.drho_sq hJ.sized hf⟩
  obtain ⟨cs, c1, c2⟩ := mapM_forall₂' k1
  obtain ⟨ds, d1, d2⟩ := mapM_forall₂' k2
  have hlen : (cs ++ ds = []) ↔ ((gens g).disc = [] ∧ (gens g).lie = []) := by
    rw [append_eq_nil_iff, ← length_eq_zero_iff, ← length_eq_zero_iff, ← c2.length_eq, ← d2.length_eq, length_eq_zero_iff, length_eq_zero_iff]
  have hop : f.constraintOp inv W disc lie = if cs ++ ds = [] then .ok (.lazy (DMat.zero 1 (f.size W))) else Op.mkConcat (cs ++ ds) := by
    simp only [Fac.constraintOp]
    simp only [c1, d1]
    rfl
  have hC : f.constraintMatrix W gens = .ok (if ((gens g).disc = [] ∧ (gens g).lie = []) then .lazy (DMat.zero 1 (f.size W)) else
      .concat (((gens g).disc.map fun h => LinOp.add (f.rho h) (.smul (-1) (.eye (f.size W)))) ++ (gens g).lie.map fun A => f.drho A)) := by
    rw [Fac.constraintMatrix, hg]
    simp
  by_cases h0 : (gens g).disc = [] ∧ (gens g).lie = []
  · refine ⟨_, _, by rw [hop, if_pos (hlen.2 h0)], by rw [hC, if_pos h0], by rw [Op.WF]; trivial, by rw [Op.den]; rfl⟩
  · have hall : Forall₂ (fun (L : LinOp F) (X : Op F) => X.Stands L.sem ∧ L.sem.IsSq (f.size W))
        (((gens g).disc.map fun h => LinOp.add (f.rho h) (.smul (-1) (.eye (f.size W)))) ++ (gens g).lie.map fun A => f.drho A) (cs ++ ds) := by
      refine rel_append ?_ ?_
      · rw [forall₂_map_left_iff]
        exact c2.imp fun J Y h => ⟨h.1, h.2.1, h.2.2⟩
      · rw [forall₂_map_left_iff]
        exact d2
    generalize (((gens g).disc.map fun h => LinOp.add (f.rho h) (.smul (-1) (.eye (f.size W)))) ++ (gens g).lie.map fun A => f.drho A) = Ls at hall hC
    have hne : cs ++ ds ≠ [] := fun e => h0 (hlen.1 e)
    generalize cs ++ ds = Xs at hop hall hne
    obtain ⟨s1, s2, s3⟩ := Op.stands_list (A := LinOp.sem) (hall.imp fun _ _ h => h.1)
    have hsq : ∀ A ∈ Ls.map LinOp.sem, A.IsSq (f.size W) := by
      intro A hA
      obtain ⟨L, hL, rfl⟩ := mem_map.1 hA
      obtain ⟨i, hi, rfl⟩ := getElem_of_mem hL
      have hi' : i < Xs.length := by omega
      exact (hall.get hi hi').2
    have hshape : ∀ N ∈ Xs, N.shape.1 = f.size W := by
      intro N hN
      obtain ⟨i, hi, rfl⟩ := getElem_of_mem hN
      have hi' : i < Ls.length := by omega
      have h3 := hall.get hi' hi
      simp only [get_eq_getElem] at h3
      rw [Op.shape_eq h3.1.1, h3.1.2, h3.2.1]
    refine ⟨.concat Xs, .concat Ls, ?_, by rw [hC, if_neg h0], ?_, ?_⟩
    · rw [hop, if_neg hne]
      match Xs, hne, hshape with
      | X :: Xs, _, hshape => rw [Op.mkConcat, if_pos fun N hN => by rw [hshape N hN, hshape X (by simp)]]
    · rw [Op.WF, s2]
      exact ⟨s1, hne, fun A hA B hB => ⟨by rw [(hsq A hA).1, (hsq B hB).1], by rw [(hsq A hA).2, (hsq B hB).2]⟩⟩
    · rw [Op.den, s2]; simp only [LinOp.sem]
      rw [show LinOp.semL Ls = Ls.map LinOp.sem by simpa using semL_map Ls id]

end Verif
