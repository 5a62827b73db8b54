import Verif.Lemmas.Solver

/-! The projector operators denote `Q Qᵀ`; the cache does not change results. -/
namespace Verif
open List DMat
variable {W : World} {R : Type} [CommRing R] {gens : Gid → GenSet R}

theorem DMat.transpose_permMat {p : List ℕ} {n : ℕ} (hp : p ~ range n) : (permMat (argsort p) : DMat R).transpose = permMat p := by
  have hl := length_of_perm_range hp
  have ha : argsort p ~ range n := hl ▸ argsort_perm p
  have hla := length_of_perm_range ha
  refine DMat.ext (by simp [hl, hla]) (by simp [hl, hla]) fun i j hi hj => ?_
  simp only [DMat.transpose_rows, DMat.transpose_cols, DMat.permMat_rows, DMat.permMat_cols, hla] at hi hj
  rw [DMat.transpose_e, DMat.permMat, DMat.permMat, DMat.of_e (by rwa [hla]) (by rwa [hla]), DMat.of_e (by rwa [hl]) (by rwa [hl])]
  by_cases h : p.getD i 0 = j
  · rw [if_pos h, if_pos ((getD_argsort_iff hp hi hj).2 h)]
  · rw [if_neg h, if_neg (mt (getD_argsort_iff hp hi hj).1 h)]

/-- Conjugating `K Kᵀ` by a reindexing. -/
theorem conj_outer {n : ℕ} {p : List ℕ} (hp : p ~ range n) {K : DMat R} (hK : K.rows = n) :
    ((permMat (argsort p)).mul (K.mul K.transpose)).mul (permMat p) =
      ((permMat (argsort p)).mul K).mul ((permMat (argsort p)).mul K).transpose := by
  have hl := length_of_perm_range hp
  have hla := length_of_perm_range (hl ▸ argsort_perm p : argsort p ~ range n)
  rw [DMat.transpose_mul _ _ (by simp [hla, hK]), transpose_permMat hp, ← mul_assoc' (permMat (argsort p)) K _ (by simp [hla, hK]),
    mul_assoc' _ K.transpose _ (by simp [hK, hl])]

variable [StarRing R] {solve : ℕ → LinOp R → Py (DMat R)}

theorem choose_bases {α : Type} {P : α → DMat R → Prop} : ∀ {l : List α} {Ls : List (LinOp R)},
    Forall₂ (fun f L => ∃ Q, P f Q ∧ L.sem = Q.mul Q.transpose) l Ls →
    ∃ Qs, Forall₂ P l Qs ∧ LinOp.semL Ls = Qs.map fun Q => Q.mul Q.transpose
  | [], _, .nil => ⟨[], .nil, rfl⟩
  | a :: t, L :: Ls, .cons ⟨Q, hQ, hL⟩ h => by
    obtain ⟨Qs, h1, h2⟩ := choose_bases h
    exact ⟨Q :: Qs, .cons hQ h1, by rw [LinOp.semL, h2, hL]; rfl⟩

omit [StarRing R] in
theorem kronL_outer (Qs : List (DMat R)) : kronL (Qs.map fun Q => Q.mul Q.transpose) = (kronL Qs).mul (kronL Qs).transpose := by
  have := kronL_mul Qs id DMat.transpose (fun x _ => by simp)
  rw [map_id] at this
  rw [transpose_kronL, this]
  rfl

omit [StarRing R] in
theorem bdiag_outer (Qs : List (DMat R)) : bdiag (Qs.map fun Q => Q.mul Q.transpose) = (bdiag Qs).mul (bdiag Qs).transpose := by
  have := bdiag_mul Qs id DMat.transpose (fun x _ => by simp)
  rw [map_id] at this
  rw [transpose_bdiag, this]
  rfl

/-- Properties of solution matrices that the assembly of bases preserves. -/
structure Closed (T : DMat R → Prop) : Prop where
  one1 : T (DMat.one 1)
  kron : ∀ A B, T A → T B → T (kron A B)
  nil : T (DMat.zero 0 0)
  bdiag2 : ∀ A B, T A → T B → T (bdiag2 A B)
  pick : ∀ (A : DMat R) p, T A → T (A.pick p (range A.cols))

theorem Closed.true : Closed (fun _ : DMat R => True) := by constructor <;> intros <;> trivial

variable {T : DMat R → Prop}

omit [StarRing R] in
theorem Closed.kronL (hT : Closed T) {Qs : List (DMat R)} (h : ∀ Q ∈ Qs, T Q) : T (DMat.kronL Qs) := by
  induction Qs with
  | nil => exact hT.one1
  | cons a t ih => exact hT.kron _ _ (h a (by simp)) (ih fun Q hQ => h Q (by simp [hQ]))

omit [StarRing R] in
theorem Closed.bdiag (hT : Closed T) {Qs : List (DMat R)} (h : ∀ Q ∈ Qs, T Q) : T (DMat.bdiag Qs) := by
  induction Qs with
  | nil => exact hT.nil
  | cons a t ih => exact hT.bdiag2 _ _ (h a (by simp)) (ih fun Q hQ => h Q (by simp [hQ]))

omit [StarRing R] in
theorem Closed.perm (hT : Closed T) {n : ℕ} {p : List ℕ} (hp : p ~ range n) {Q : DMat R} (hQ : Q.rows = n) (h : T Q) :
    T ((permMat (argsort p)).mul Q) := by
  rw [← pick_rows_eq hp hQ]; exact hT.pick _ _ h

/-- Started from a cache of correct solutions with property `T`, the method preserves this and returns values in `P`. -/
def MeetsT {β : Type} (W : World) (gens : Gid → GenSet R) (T : DMat R → Prop) (m : SolveM R β) (P : β → Prop) : Prop :=
  ∀ σ, CacheOK W gens σ → (∀ e ∈ σ.cache, T e.2) →
    (CacheOK W gens (m σ).2 ∧ ∀ e ∈ (m σ).2.cache, T e.2) ∧ ∀ b, (m σ).1 = .ok b → P b

theorem MeetsT.map {β γ : Type} {m : SolveM R β} {P : β → Prop} {Q : γ → Prop} {f : β → γ} (h : MeetsT W gens T m P)
    (hf : ∀ b, P b → Q (f b)) : MeetsT W gens T (solveMap f m) Q := by
  intro σ hσ hT
  obtain ⟨h1, h2⟩ := h σ hσ hT
  unfold solveMap
  generalize hm : m σ = r at h1 h2
  obtain ⟨o, σ'⟩ := r
  cases o with
  | error e => exact ⟨h1, fun b hb => by simp at hb⟩
  | ok a => exact ⟨h1, fun b hb => by injection hb with hb; rw [← hb]; exact hf a (h2 a rfl)⟩

theorem MeetsT.list {α β : Type} {f : α → SolveM R β} {P : α → β → Prop} : ∀ {l : List α}, (∀ a ∈ l, MeetsT W gens T (f a) (P a)) →
    MeetsT W gens T (solveList f l) fun bs => Forall₂ P l bs
  | [], _ => fun σ hσ hT => ⟨⟨hσ, hT⟩, fun bs hb => by injection hb with hb; rw [← hb]; exact .nil⟩
  | a :: t, h => by
    intro σ hσ hT
    obtain ⟨h1, h2⟩ := h a (by simp) σ hσ hT
    rw [solveList]
    generalize hm : f a σ = r at h1 h2
    obtain ⟨o, σ'⟩ := r
    cases o with
    | error e => exact ⟨h1, fun b hb => by simp at hb⟩
    | ok b =>
      obtain ⟨h3, h4⟩ := MeetsT.list (l := t) (fun x hx => h x (by simp [hx])) σ' h1.1 h1.2
      simp only
      generalize solveList f t σ' = r at h3 h4
      obtain ⟨o, σ''⟩ := r
      cases o with
      | error e => exact ⟨h3, fun b hb => by simp at hb⟩
      | ok bs => exact ⟨h3, fun c hc => by injection hc with hc; rw [← hc]; exact .cons (h2 b rfl) (h4 bs rfl)⟩

theorem Fac.basis_T (hT : Closed T) (hs : GenSet.Sized W gens) (hsol : SolverOK W gens solve) (hsT : ∀ n (f : Fac) C Q, f.constraintMatrix W gens = .ok C → solve n C = .ok Q → T Q)
    {f : Fac} (hf : f.WF W) : MeetsT W gens T (f.basis W gens solve) fun Q => f.Basis W gens Q ∧ T Q := by
  intro σ hσ hc
  obtain ⟨h1, h2⟩ := Fac.basis_meets hs hsol hf σ hσ
  have key : (∀ e ∈ (f.basis W gens solve σ).2.cache, T e.2) ∧ ∀ b, (f.basis W gens solve σ).1 = .ok b → T b := by
    clear h1 h2
    unfold Fac.basis
    cases f.canon W with
    | error e => exact ⟨hc, fun b hb => by simp at hb⟩
    | ok cp =>
      obtain ⟨c, p⟩ := cp
      simp only
      cases hg : σ.get c with
      | some Q => exact ⟨hc, fun b hb => by injection hb with hb; rw [← hb]; exact hT.pick _ _ (hc _ (SolveSt.get_mem hg))⟩
      | none =>
        simp only
        cases hC : c.constraintMatrix W gens with
        | error e => exact ⟨hc, fun b hb => by simp at hb⟩
        | ok C =>
          simp only
          cases hQ : solve σ.calls C with
          | error e => exact ⟨hc, fun b hb => by simp at hb⟩
          | ok Q =>
            refine ⟨fun e he => ?_, fun b hb => by injection hb with hb; rw [← hb]; exact hT.pick _ _ (hsT _ _ _ _ hC hQ)⟩
            rcases mem_cons.1 he with rfl | he
            · exact hsT _ _ _ _ hC hQ
            · exact hc e he
  exact ⟨⟨h1, key.1⟩, fun b hb => ⟨h2 b hb, key.2 b hb⟩⟩

theorem forall₂_and {α β : Type} {P : α → β → Prop} {Q : β → Prop} : ∀ {l : List α} {m : List β},
    Forall₂ (fun a b => P a b ∧ Q b) l m → Forall₂ P l m ∧ ∀ b ∈ m, Q b
  | _, _, .nil => ⟨.nil, by simp⟩
  | _, _, .cons h t => by
    obtain ⟨h1, h2⟩ := forall₂_and t
    exact ⟨.cons h.1 h1, fun b hb => by rcases mem_cons.1 hb with rfl | hb; exacts [h.2, h2 b hb]⟩

section
variable (hT : Closed T) (hs : GenSet.Sized W gens) (hsol : SolverOK W gens solve) (hsT : ∀ n (f : Fac) C Q, f.constraintMatrix W gens = .ok C → solve n C = .ok Q → T Q)
include hT hs hsol hsT

theorem Fac.projector_T {f : Fac} (hf : f.WF W) : MeetsT W gens T (f.projector W gens solve) fun L =>
    ∃ Q, (f.Basis W gens Q ∧ T Q) ∧ L.sem = Q.mul Q.transpose :=
  (Fac.basis_T hT hs hsol hsT hf).map fun Q hQ => ⟨Q, hQ, rfl⟩

theorem Key.projector_T {k : Key} (hk : k.WF W) (hone : k.OnePerGroup) :
    MeetsT W gens T (k.projector W gens solve) fun L => ∃ Q, (k.Basis W gens Q ∧ T Q) ∧ L.sem = Q.mul Q.transpose := by
  cases k with
  | scalar => exact fun σ hσ hc => ⟨⟨hσ, hc⟩, fun b hb => by injection hb with hb; rw [← hb]; exact ⟨_, ⟨Key.basis_scalar, hT.one1⟩, rfl⟩⟩
  | fac f => exact Fac.projector_T hT hs hsol hsT hk
  | dprod d =>
    have hd : d.WF W := hk
    refine (MeetsT.list fun f hf => Fac.projector_T hT hs hsol hsT (hd.key f hf)).map fun Ps hPs => ?_
    obtain ⟨Qs, hQ, hP⟩ := choose_bases hPs
    obtain ⟨hQ, hQT⟩ := forall₂_and hQ
    have hr : (DMat.kronL Qs).rows = d.size W := by
      have h1 := (kronL_basis hs hd.key hone hQ).rows
      rw [← DRep.expand_keys hd, prod_map_expand] at h1
      exact h1
    refine ⟨_, ⟨DRep.basis_of hs hd hone hQ, hT.perm hd.perm hr (hT.kronL hQT)⟩, ?_⟩
    simp only [conjPerm, LinOp.sem]
    rw [hP, kronL_outer, conj_outer hd.perm hr]

theorem SRep.projector_T {s : SRep} (hw : s.WF W)
    (hone : ∀ k ∈ s.c.keys, k.OnePerGroup) : MeetsT W gens T (s.projector W gens solve) fun L => ∃ Q,
      (OrthoBasis (s.size W) Q (FixedBy W gens (fun I => (s.rho I).sem) fun I => (s.drho I).sem) ∧ T Q) ∧ L.sem = Q.mul Q.transpose := by
  refine (MeetsT.list fun k hk => Key.projector_T hT hs hsol hsT (hw.key k hk).1 (hone k hk)).map fun Ps hPs => ?_
  obtain ⟨Qs, hQ, hP⟩ := choose_bases (forall₂_expand hPs)
  obtain ⟨hQ, hQT⟩ := forall₂_and hQ
  have hr : (DMat.bdiag Qs).rows = s.size W := by
    have h1 := (bdiag_basis hs (fun k hk => (hw.key k (Counter.mem_expand hk)).1) hQ).rows
    rw [sum_map_expand] at h1
    exact h1
  refine ⟨_, ⟨SRep.basis_of hs hw hQ, hT.perm hw.perm hr (hT.bdiag hQT)⟩, ?_⟩
  have e := semL_map (expandOps (Ps.zip (s.c.map (·.2)))) (id : LinOp R → LinOp R)
  rw [map_id] at e
  simp only [conjPerm, LinOp.sem, semM_expand]
  have e2 : (expandOps (Ps.zip (s.c.map (·.2)))).map LinOp.sem = Qs.map fun Q => Q.mul Q.transpose := by
    rw [← hP, e]; rfl
  rw [e2, bdiag_outer, conj_outer hw.perm hr]

theorem Rep.projector_T {r : Rep} (hw : r.WF W) (hone : r.OnePerGroup) :
    MeetsT W gens T (r.equivariantProjector W gens solve) fun L =>
      ∃ Q, (OrthoBasis (r.size W) Q (r.Fixed W gens) ∧ T Q) ∧ L.sem = Q.mul Q.transpose := by
  match r, hw, hone with
  | .key k, hw, hone => exact Key.projector_T hT hs hsol hsT hw hone
  | .sum s, hw, hone => exact SRep.projector_T hT hs hsol hsT hw hone

end

theorem Rep.projector_meets (hs : GenSet.Sized W gens) (hsol : SolverOK W gens solve) {r : Rep} (hw : r.WF W) (hone : r.OnePerGroup) :
    Meets W gens (r.equivariantProjector W gens solve) fun L => ∃ Q, OrthoBasis (r.size W) Q (r.Fixed W gens) ∧ L.sem = Q.mul Q.transpose := by
  intro σ hσ
  obtain ⟨h1, h2⟩ := Rep.projector_T (T := fun _ => True) Closed.true hs hsol (fun _ _ _ _ _ _ => trivial) hw hone σ hσ fun _ _ => trivial
  exact ⟨h1.1, fun b hb => by obtain ⟨Q, hQ, e⟩ := h2 b hb; exact ⟨Q, hQ.1, e⟩⟩

theorem DMat.IsReal.transpose_eq {A : DMat R} (h : A.IsReal) : A.conjTranspose = A.transpose :=
  DMat.ext rfl rfl fun i j _ _ => by rw [conjTranspose_e, transpose_e, h]

theorem DMat.real_of {m n : ℕ} {f : ℕ → ℕ → R} (h : ∀ i j, star (f i j) = f i j) : (DMat.of m n f).IsReal := by
  intro i j
  unfold DMat.of
  dsimp only
  split
  · exact h i j
  · exact star_zero R

theorem closed_real : Closed (DMat.IsReal : DMat R → Prop) where
  one1 := DMat.real_of fun i j => by split <;> simp
  nil i j := by rw [zero_e, star_zero]
  kron A B hA hB := DMat.real_of fun i j => by rw [star_mul', hA, hB]
  bdiag2 A B hA hB := DMat.real_of fun i j => by
    split_ifs <;> first | exact star_zero R | exact hA _ _ | exact hB _ _
  pick A p hA := DMat.real_of fun i j => hA _ _

end Verif
