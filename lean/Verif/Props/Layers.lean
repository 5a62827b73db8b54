import Verif.Spec.Elements
import Verif.Lemmas.Network
import Verif.Lemmas.PermGen
import Verif.Props.Sampled
import Verif.Props.Solver

/-!
# Linear layers and whole networks (C30, C36)
-/
namespace Verif
open List

/-! ### Group elements meet the hypotheses of the layer lemmas -/

section
variable {W : World} {custom : ∀ k g, AtomRep ℝ (W.d g) (W.usize k g)} {lie disc : ∀ g, List (Matrix (Fin (W.d g)) (Fin (W.d g)) ℝ)}
  {g : Gid} {h : Matrix (Fin (W.d g)) (Fin (W.d g)) ℝ}

theorem generated_oneAt (hg : Generated (lie g) (disc g) h) : ∀ g', Generated (lie g') (disc g') (oneAt W g h g') := by
  intro g'
  by_cases e : g' = g
  · subst e; rw [oneAt_same]; exact hg
  · rw [oneAt_ne e]; exact .one

theorem Generated.inverse {n : ℕ} {lie disc : List (Matrix (Fin n) (Fin n) ℝ)} (hd : ∀ h ∈ disc, IsUnit h.det) {M : Matrix (Fin n) (Fin n) ℝ}
    (hM : Generated lie disc M) : Generated lie disc M⁻¹ := by
  induction hM with
  | one => rw [inv_one]; exact .one
  | exp hA => rw [← Matrix.exp_neg]; exact .exp (Submodule.neg_mem _ hA)
  | gen h => exact .inv h
  | inv h => rw [Matrix.nonsing_inv_nonsing_inv _ (hd _ h)]; exact .gen h
  | mul _ _ h1 h2 => rw [Matrix.mul_inv_rev]; exact .mul h2 h1

theorem rho_isUnit {n m : ℕ} {a : AtomRep ℝ n m} {lie disc : List (Matrix (Fin n) (Fin n) ℝ)} (ha : a.Hom lie disc)
    (hd : ∀ h ∈ disc, IsUnit h.det) {M : Matrix (Fin n) (Fin n) ℝ} (hM : Generated lie disc M) : IsUnit (a.rho M).det := by
  have h1 := ha.mul M M⁻¹ hM (hM.inverse hd)
  rw [Matrix.mul_nonsing_inv _ (hM.isUnit hd), a.one] at h1
  exact (Matrix.isUnit_iff_isUnit_det _).1 (IsUnit.of_mul_eq_one _ h1.symm)

theorem GroupsOK.orthogonal (ok : GroupsOK W custom lie disc) (ho : W.orth g = true) (hg : Generated (lie g) (disc g) h) :
    h.transpose * h = 1 := by
  have := Generated.form (1 : Matrix (Fin (W.d g)) (Fin (W.d g)) ℝ) (by simp) (lie := lie g) (disc := disc g)
    (fun A hA => by rw [Matrix.conjTranspose_eq_transpose_of_trivial, (ok.orth g ho).1 A hA]; simp)
    (fun k hk => by rw [Matrix.conjTranspose_eq_transpose_of_trivial, Matrix.mul_one]; exact (ok.orth g ho).2 k hk) hg
  rw [Matrix.conjTranspose_eq_transpose_of_trivial, Matrix.mul_one] at this
  exact this

theorem elem_dual (ok : GroupsOK W custom lie disc) (hg : Generated (lie g) (disc g) h) : (Interp.elem W custom g h).Dual W where
  toSized := at_sized _
  inv k g' := by
    have hu := rho_isUnit (stdAtoms_hom ok.hom k g') (ok.unit g') (generated_oneAt hg g')
    show (DMat.ofMatrix (((stdAtoms W custom k g').rho (oneAt W g h g'))⁻¹.transpose)).transpose.mul (DMat.ofMatrix _) = _
    rw [← DMat.ofMatrix_transpose, Matrix.transpose_transpose, ← DMat.ofMatrix_mul, Matrix.nonsing_inv_mul _ hu, DMat.ofMatrix_one]
  orth k g' ho := by
    have hM := ok.orthogonal ho (generated_oneAt hg g')
    have : ((stdAtoms W custom k g').rho (oneAt W g h g')).transpose * (stdAtoms W custom k g').rho (oneAt W g h g') = 1 := by
      cases k with
      | zero => exact hM
      | succ k => exact ok.user (k + 1) g' ho _ (generated_oneAt hg g')
    show (DMat.ofMatrix ((stdAtoms W custom k g').rho (oneAt W g h g'))).transpose.mul (DMat.ofMatrix _) = _
    rw [← DMat.ofMatrix_transpose, ← DMat.ofMatrix_mul, this, DMat.ofMatrix_one]

theorem elem_fixes (ok : GroupsOK W custom lie disc) (hg : Generated (lie g) (disc g) h) :
    Fixes W (gensOf W (stdAtoms W custom) lie disc) (Interp.elem W custom g h) := fun _ hr _ hv hfix =>
  C25_generated (stdAtoms_hom ok.hom) ok.unit hr hv hfix (generated_oneAt hg) (gs := [g]) fun g' hg' => oneAt_ne (by simpa using hg') h

theorem elem_perm (ok : GroupsOK W custom lie disc) (hg : Generated (lie g) (disc g) h) :
    ∀ g', W.isPerm g' = true → IsPermMat (W.asize 0 g') ((Interp.elem W custom g h).vec 0 (some g')).sem := by
  intro g' hp
  obtain ⟨h1, h2⟩ := ok.perm g' hp
  have h3 := generated_oneAt hg g'
  rw [h1] at h3
  obtain ⟨σ, hσ⟩ := Generated.perm_of h2 h3
  refine ⟨(finRange (W.d g')).map fun i => (σ i).val, ?_, ?_⟩
  · have : (finRange (W.d g')).map (fun i => (σ i).val) = ((finRange (W.d g')).map σ).map Fin.val := by simp
    rw [this]
    have e : range (W.asize 0 g') = (finRange (W.d g')).map Fin.val := by
      apply List.ext_getElem <;> simp [World.asize]
    rw [e]
    refine Perm.map _ ?_
    rw [perm_ext_iff_of_nodup ((nodup_finRange _).map σ.injective) (nodup_finRange _)]
    intro a
    simp only [mem_map, mem_finRange, true_and, iff_true]
    exact ⟨σ.symm a, by simp⟩
  · show DMat.ofMatrix (oneAt W g h g') = _
    rw [hσ]
    refine DMat.ext (by simp [DMat.ofMatrix, DMat.permMat, DMat.of]) (by simp [DMat.ofMatrix, DMat.permMat, DMat.of]) fun i j hi hj => ?_
    have hi' : i < W.d g' := hi
    have hj' : j < W.d g' := hj
    rw [DMat.ofMatrix_e _ hi' hj', pm_apply]
    refine Eq.symm ((DMat.of_e (by simpa using hi') (by simpa using hj')).trans ?_)
    rw [getD_eq_getElem _ _ (by simpa using hi')]
    simp [Fin.ext_iff, eq_comm]

theorem gensOf_sized : GenSet.Sized W (gensOf W (stdAtoms W custom) lie disc) := by
  intro g
  constructor
  · intro x hx; obtain ⟨_, -, rfl⟩ := mem_map.1 hx; exact at_sized _
  · intro x hx; obtain ⟨_, -, rfl⟩ := mem_map.1 hx; exact dat_sized _

end

theorem NetReach.ok {R : Type} [CommRing R] [StarRing R] {W : World} {g : Gid} {gens : Gid → GenSet R}
    {solve : ℕ → LinOp R → Py (DMat R)} (hsol : SolverOK W gens solve) {σ : NetSt R} (h : NetReach W g gens solve σ) :
    NetSt.OK W g gens σ := by
  induction h with
  | start sg n h => exact ⟨fun e he => by simp [freshSt] at he, h⟩
  | call c σ _ ih =>
    refine ⟨?_, ih.sg⟩
    exact c.keeps (W := W.setG σ.sg) (gens := gens) (P := fun C Q => OrthoBasis C.sem.cols Q fun v => C.sem.mulVec v = replicate C.sem.rows 0)
      (fun n f C Q h1 h2 => hsol n f C Q h1 h2) σ.solve ih.cache
  | scalar sg σ h _ ih => exact ⟨ih.cache, h⟩
  | draw n σ _ ih => exact ⟨ih.cache, ih.sg⟩

section
variable {W : World} {g : Gid} {N : ℕ} {custom : ∀ k g, AtomRep ℝ (W.d g) (W.usize k g)}
  {lie disc : ∀ g, List (Matrix (Fin (W.d g)) (Fin (W.d g)) ℝ)} {solve : ℕ → LinOp ℝ → Py (DMat ℝ)} {rng : Rng} {σ : NetSt ℝ} {a o : Rep}

/-- C30: a linear layer, built after any history, commutes with every element of the group generated by the exponentials of the
Lie algebra and the discrete generators, for all values of its weight and bias; building it succeeds unless the numerical routine
raises. -/
theorem C30_linear (hW : W.SingleOK g N) (ok : GroupsOK W custom lie disc)
    (hsol : SolverOK W (gensOf W (stdAtoms W custom) lie disc) solve) (hσ : NetReach W g (gensOf W (stdAtoms W custom) lie disc) solve σ)
    (ha : a.Over W g N) (ho : o.Over W g N) (hN : o.size W * a.size W ≤ N) :
    (∀ L σ', LinearL.init W (gensOf W (stdAtoms W custom) lie disc) solve a o σ = .ok (L, σ') →
      ∀ (w : DMat ℝ) (b : List ℝ), w.rows = o.size W → w.cols = a.size W → b.length = o.size W →
      ∀ h, Generated (lie g) (disc g) h →
        Commutes (a.size W) (o.size W) (L.apply w b) (a.mat (Interp.elem W custom g h)) (o.mat (Interp.elem W custom g h))) ∧
    (SolverRuns W (gensOf W (stdAtoms W custom) lie disc) solve →
      ∃ L σ', LinearL.init W (gensOf W (stdAtoms W custom) lie disc) solve a o σ = .ok (L, σ')) := by
  constructor
  · intro L σ' hL w b h1 h2 h3 h hg
    have := (LinearL.init_meets hW gensOf_sized hsol ha ho hN σ (hσ.ok hsol) L σ' hL).2
    exact this.commutes ho.wf (elem_dual ok hg) ha.wf (elem_fixes ok hg) h1 h2 h3
  · intro ht
    exact LinearL.init_runs hW gensOf_sized hsol ha ho ht hN σ (hσ.ok hsol)

variable {mids : List Rep} {b : ℕ}

/-- C36: a network of any depth, built after any history with whatever random choices, is equivariant for all values of its
parameters: whenever it returns on `x`, it returns `ρ_out(h)` times the same output on `ρ_in(h)x`.  `b` bounds the layer widths
(gates included) and `N ≥ b²` the size up to which the hashes of representations do not collide. -/
theorem C36_equivariant (hW : W.SingleOK g N) (ok : GroupsOK W custom lie disc)
    (hsol : SolverOK W (gensOf W (stdAtoms W custom) lie disc) solve) (hσ : NetReach W g (gensOf W (stdAtoms W custom) lie disc) solve σ)
    (hrng : RngOK rng) (hov : ∀ r ∈ a :: o :: mids, r.Over W g N ∧ r.size W + r.gates W ≤ b) (hN : b * b ≤ N)
    {E : Emlp ℝ} {σ' : NetSt ℝ} (hE : Emlp.build W (gensOf W (stdAtoms W custom) lie disc) solve rng a mids o σ = .ok (E, σ'))
    {ps : List (BlockParams ℝ)} {w : DMat ℝ} {β : List ℝ} (hp : E.Shaped ps w β) (c : ℝ) (act : ℝ → ℝ)
    {h : Matrix (Fin (W.d g)) (Fin (W.d g)) ℝ} (hg : Generated (lie g) (disc g) h) {x y : List ℝ} (hx : x.length = a.size W)
    (hy : E.apply W c act ps w β x = .ok y) : y.length = o.size W ∧
      E.apply W c act ps w β ((a.mat (Interp.elem W custom g h)).mulVec x) = .ok ((o.mat (Interp.elem W custom g h)).mulVec y) := by
  have good := (Emlp.build_meets hW gensOf_sized hsol hrng hov hN σ (hσ.ok hsol) E σ' hE).2
  by_cases hc : ∀ r ∈ mids, r.CanonicalSum W
  · obtain ⟨z, h1, h2, h3⟩ := good.commutes hW (hov a (by simp)).1 (hov o (by simp)).1
      (fun r hr => ⟨(hov r (by simp [hr])).1, hc r hr⟩) c act (elem_dual ok hg) (elem_fixes ok hg) (elem_perm ok hg) hp x hx
    rw [h1] at hy
    have := Except.ok.inj hy
    subst this
    exact ⟨h2, h3⟩
  · push Not at hc
    obtain ⟨e, he⟩ := good.raises (fun r hr => (hov r (by simp [hr])).1) hc c act hp.blocks.length_eq.symm x (w := w) (β := β)
    rw [he] at hy
    cases hy

/-- C36: if all hidden representations are sums in canonical order (as those returned by `uniform_rep` are), the network is
built and returns on every input. -/
theorem C36_total (hW : W.SingleOK g N) (ok : GroupsOK W custom lie disc)
    (hsol : SolverOK W (gensOf W (stdAtoms W custom) lie disc) solve) (ht : SolverRuns W (gensOf W (stdAtoms W custom) lie disc) solve)
    (hσ : NetReach W g (gensOf W (stdAtoms W custom) lie disc) solve σ)
    (hrng : RngOK rng) (hov : ∀ r ∈ a :: o :: mids, r.Over W g N ∧ r.size W + r.gates W ≤ b) (hN : b * b ≤ N)
    (hc : ∀ r ∈ mids, r.CanonicalSum W) :
    ∃ E σ', Emlp.build W (gensOf W (stdAtoms W custom) lie disc) solve rng a mids o σ = .ok (E, σ') ∧
      ∀ ps w β, E.Shaped ps w β → ∀ (c : ℝ) (act : ℝ → ℝ) (x : List ℝ), x.length = a.size W → ∃ y, E.apply W c act ps w β x = .ok y := by
  obtain ⟨E, σ', hE⟩ := Emlp.build_runs hW gensOf_sized hsol hrng hov hN ht (fun r hr => by obtain ⟨s, e, -⟩ := hc r hr; exact ⟨s, e⟩) σ (hσ.ok hsol)
  refine ⟨E, σ', hE, fun ps w β hp c act x hx => ?_⟩
  have good := (Emlp.build_meets hW gensOf_sized hsol hrng hov hN σ (hσ.ok hsol) E σ' hE).2
  obtain ⟨z, h1, -⟩ := good.commutes hW (hov a (by simp)).1 (hov o (by simp)).1
    (fun r hr => ⟨(hov r (by simp [hr])).1, hc r hr⟩) c act (elem_dual (g := g) ok .one) (elem_fixes ok .one) (elem_perm ok .one) hp x hx
  exact ⟨z, h1⟩

/-- C36: if one of them is not, building the network or else every call raises. -/
theorem C36_raises (hW : W.SingleOK g N) 
    (hsol : SolverOK W (gensOf W (stdAtoms W custom) lie disc) solve) (hσ : NetReach W g (gensOf W (stdAtoms W custom) lie disc) solve σ)
    (hrng : RngOK rng) (hov : ∀ r ∈ a :: o :: mids, r.Over W g N ∧ r.size W + r.gates W ≤ b) (hN : b * b ≤ N)
    (hc : ∃ r ∈ mids, ¬ r.CanonicalSum W) {E : Emlp ℝ} {σ' : NetSt ℝ}
    (hE : Emlp.build W (gensOf W (stdAtoms W custom) lie disc) solve rng a mids o σ = .ok (E, σ'))
    {ps : List (BlockParams ℝ)} {w : DMat ℝ} {β : List ℝ} (hp : ps.length = E.blocks.length) (c : ℝ) (act : ℝ → ℝ) (x : List ℝ) :
    ∃ e, E.apply W c act ps w β x = .error e :=
  (Emlp.build_meets hW gensOf_sized hsol hrng hov hN σ (hσ.ok hsol) E σ' hE).2.raises (fun r hr => (hov r (by simp [hr])).1) hc c act hp x

end

/-! A case: group `0` with the Lie algebra of rotations about the third axis, the network `V → S → S → Scalar` where
`S = Scalar + 2V`. -/

/-- The generator of rotations in the plane of the first two coordinates. -/
def rotLie (n : ℕ) : Matrix (Fin n) (Fin n) ℝ := Matrix.of fun i j => if i.val = 0 ∧ j.val = 1 then 1 else if i.val = 1 ∧ j.val = 0 then -1 else 0

def rotLies (g : Gid) : List (Matrix (Fin (exW.d g)) (Fin (exW.d g)) ℝ) := if g = 0 then [rotLie _] else []

/-- the trivial user-defined representation -/
noncomputable def trivialAtom (n m : ℕ) : AtomRep ℝ n m := ⟨fun _ => 1, 0, rfl⟩

theorem trivialAtom_hom {n m : ℕ} (lie disc : List (Matrix (Fin n) (Fin n) ℝ)) : (trivialAtom n m).Hom lie disc :=
  ⟨fun _ _ _ _ => by simp [trivialAtom], fun _ _ => by simp [trivialAtom]⟩

theorem rot_groups : GroupsOK exW (fun k g => trivialAtom _ _) rotLies fun _ => [] where
  unit g h hh := by simp at hh
  orth g _ := by
    refine ⟨fun A hA => ?_, by simp⟩
    unfold rotLies at hA
    split_ifs at hA with hg
    · rw [mem_singleton.1 hA]
      ext i j
      simp only [rotLie, Matrix.transpose_apply, Matrix.of_apply, Matrix.neg_apply]
      split_ifs <;> first | omega | simp
    · simp at hA
  hom _ _ := trivialAtom_hom _ _
  user k g _ M _ := by simp [trivialAtom]
  perm g hg := by
    have : g = 2 := by simpa [exW] using hg
    subst this
    exact ⟨rfl, by simp⟩

theorem exists_rng : ∃ rng : Rng, RngOK rng :=
  ⟨⟨fun _ _ _ c => replicate c 0, fun _ _ c => replicate c 0⟩,
    ⟨fun i k m c h => ⟨by simp, fun j hj => by obtain ⟨h1, rfl⟩ := mem_replicate.1 hj; omega⟩,
     fun i r c => ⟨by simp, fun p hp => by rw [(mem_replicate.1 hp).2]; omega⟩⟩⟩

theorem exV_over : (Rep.key (.fac (.atom (.vec 0 (some 0))))).Over exW 0 81 :=
  ⟨rfl, by intro k hk; rw [show k = .fac (.atom (.vec 0 (some 0))) by simpa [Rep.keys, Key.base, Fac.base] using hk]; exact ⟨by decide, .inl ⟨rfl, 0, rfl⟩, by decide⟩⟩

example : ∃ (solve : ℕ → LinOp ℝ → Py (DMat ℝ)) (rng : Rng) (E : Emlp ℝ) (σ' : NetSt ℝ),
    SolverOK exW (gensOf exW (stdAtoms exW fun k g => trivialAtom _ _) rotLies fun _ => []) solve ∧ RngOK rng ∧
    NetReach exW 0 (gensOf exW (stdAtoms exW fun k g => trivialAtom _ _) rotLies fun _ => []) solve ⟨freshSt, none, 0⟩ ∧
    (∀ r ∈ [Rep.key (.fac (.atom (.vec 0 (some 0)))), .key .scalar, .sum exS, .sum exS], r.Over exW 0 81 ∧ r.size exW + r.gates exW ≤ 9) ∧
    (∀ r ∈ [Rep.sum exS, .sum exS], r.CanonicalSum exW) ∧
    Emlp.build exW (gensOf exW (stdAtoms exW fun k g => trivialAtom _ _) rotLies fun _ => []) solve rng (.key (.fac (.atom (.vec 0 (some 0)))))
      [.sum exS, .sum exS] (.key .scalar) ⟨freshSt, none, 0⟩ = .ok (E, σ') := by
  obtain ⟨s, h1, h2⟩ := exists_solver ℝ
  obtain ⟨rng, hr⟩ := exists_rng
  have ho : ∀ r ∈ [Rep.key (.fac (.atom (.vec 0 (some 0)))), .key .scalar, .sum exS, .sum exS], r.Over exW 0 81 ∧ r.size exW + r.gates exW ≤ 9 := by
    intro r hr
    simp only [mem_cons, not_mem_nil, or_false, or_self] at hr
    rcases hr with rfl | rfl | rfl
    · exact ⟨exV_over, by rw [exV_over.wf.gates]; decide +kernel⟩
    · exact ⟨over_scalar (exW_single 0 81 (by decide)), by rw [(over_scalar (exW_single 0 81 (by decide))).wf.gates]; decide +kernel⟩
    · exact ⟨exS_over (by decide), by rw [(exS_over (N := 81) (by decide)).wf.gates]; decide +kernel⟩
  have hc : ∀ r ∈ [Rep.sum exS, .sum exS], r.CanonicalSum exW := by
    intro r hr
    simp only [mem_cons, not_mem_nil, or_false, or_self] at hr
    subst hr
    exact ⟨exS, rfl, rfl⟩
  have hσ : NetReach exW 0 (gensOf exW (stdAtoms exW fun k g => trivialAtom _ _) rotLies fun _ => []) (fun _ => s) ⟨freshSt, none, 0⟩ :=
    .start none 0 fun h e => by simp at e
  obtain ⟨E, σ', hE, -⟩ := C36_total (exW_single 0 81 (by decide)) rot_groups (h1 _ _) (fun _ _ C _ => h2 C) hσ hr ho (by decide) hc
  exact ⟨_, rng, E, σ', h1 _ _, hr, hσ, ho, hc, hE⟩

end Verif
