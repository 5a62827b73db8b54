import Verif.Spec.GradientTraining
import Verif.Props.Training
import Verif.Props.Universal
import Verif.Lemmas.LinApply5
import Mathlib.Analysis.Calculus.LineDeriv.Basic

/-!
# C124: gradients of equivariant layers are equivariant, and training does not see the rest of the weights
-/
namespace Verif
open List

section
variable {Θ σ γ β : Type} [Add Θ]

/-- **C124, any training run.** Let a translation of the parameters by `n` change neither the losses nor the metrics.  Then for every optimizer that adds
its updates to the parameters, training from translated parameters is the same training run: the same log, epochs and optimizer states, and in the end
parameters that are translated by `n`. -/
theorem C124_training (T : TrainerObj Θ σ γ β) {n : Θ} (hl : ∀ t mb, T.loss (t + n) mb = T.loss t mb) (hm : ∀ m ∈ T.metrics, ∀ t mb, m.2 (t + n) mb = m.2 t mb)
    (hfirst : ∀ k t, T.first k (t + n) = T.first k t) (hL : T.learner.Translates n) (e : ℕ) (s : RunSt Θ σ) (calls : List (TrainCall × (ℕ → Bool))) :
    T.run (e, { s with params := s.params + n }) calls = (T.run (e, s) calls).map fun r => (r.1, { r.2 with params := r.2.params + n }) := by
  have hall : ∀ t L, T.allMetrics (t + n) L = T.allMetrics t L := by
    intro t L
    induction L with
    | nil => rfl
    | cons a L ih =>
      obtain ⟨name, bs, l⟩ := a
      have : (T.metrics.mapM fun m => (averageMetric bs l (m.2 (t + n)) >>= fun v => pure (name ++ "_" ++ m.1, v) : Py _)) =
          T.metrics.mapM fun m => (averageMetric bs l (m.2 t) >>= fun v => pure (name ++ "_" ++ m.1, v) : Py _) := by
        have : ∀ M : List (String × (Θ → β → Py Fl)), (∀ m ∈ M, ∀ t mb, m.2 (t + n) mb = m.2 t mb) →
            (M.mapM fun m => (averageMetric bs l (m.2 (t + n)) >>= fun v => pure (name ++ "_" ++ m.1, v) : Py _)) =
            M.mapM fun m => (averageMetric bs l (m.2 t) >>= fun v => pure (name ++ "_" ++ m.1, v) : Py _) := by
          intro M
          induction M with
          | nil => intro _; rfl
          | cons m M ih2 =>
            intro h
            rw [mapM_cons, mapM_cons, ih2 fun m' hm' => h m' (by simp [hm']), show m.2 (t + n) = m.2 t from funext fun mb => h m (by simp) t mb]
        exact this _ hm
      rw [TrainerObj.allMetrics, TrainerObj.allMetrics, ih]
      by_cases hc : name = "train" ∨ l.length = 0
      · rw [if_pos hc, if_pos hc]
      · rw [if_neg hc, if_neg hc]
        split
        · rfl
        · rfl
        · rw [this]
  have hexec : ∀ (s : RunSt Θ σ) (a : Ev), T.exec { s with params := s.params + n } a = (T.exec s a).map fun r => { r with params := r.params + n } := by
    intro s a
    cases a with
    | step ep i st =>
      simp only [TrainerObj.exec, TrainerObj.step]
      rw [hL.grad _ _ fun t => hl t _]
      cases T.learner.gradvals (fun t => T.loss t (T.batches ep i)) s.params with
      | error e => rfl
      | ok g =>
        show Except.ok _ = Except.ok _
        rw [hL.update]
    | log st =>
      simp only [TrainerObj.exec]
      rw [hfirst, hall]
      cases T.first s.log.length s.params with
      | error e => rfl
      | ok rows =>
        cases h : T.allMetrics s.params T.loaders with
        | error e =>
          simp only [bind, Except.bind, h]
          rfl
        | ok m =>
          simp only [bind, Except.bind, h]
          rfl
  have hfold : ∀ (evs : List Ev) (s : RunSt Θ σ), evs.foldlM T.exec { s with params := s.params + n } = (evs.foldlM T.exec s).map fun r => { r with params := r.params + n } := by
    intro evs
    induction evs with
    | nil => intro s; rfl
    | cons a evs ih =>
      intro s
      rw [foldlM_cons, foldlM_cons, hexec]
      cases T.exec s a with
      | error e => rfl
      | ok s' => exact ih s'
  have hcall : ∀ (dl : ℕ → Bool) (e : ℕ) (s : RunSt Θ σ) (c : TrainCall), T.call dl (e, { s with params := s.params + n }) c =
      (T.call dl (e, s) c).map fun r => (r.1, { r.2 with params := r.2.params + n }) := by
    intro dl e s c
    cases c with
    | train num =>
      simp only [TrainerObj.call, bind, Except.bind]
      rw [hfold]
      cases (train dl T.trainLen num ⟨e, []⟩).ev.foldlM T.exec s <;> rfl
    | trainTo final =>
      simp only [TrainerObj.call]
      cases trainTo dl T.trainLen final ⟨e, []⟩ with
      | error e => rfl
      | ok tr =>
        simp only [bind, Except.bind]
        rw [hfold]
        cases tr.ev.foldlM T.exec s <;> rfl
  induction calls generalizing e s with
  | nil => rfl
  | cons c cs ih =>
    rw [TrainerObj.run, TrainerObj.run, hcall]
    cases T.call c.2 (e, s) c.1 with
    | error e => rfl
    | ok r => exact ih r.1 r.2

end

section
variable {W : World}

theorem SameLayer.linear {L : LinearL ℝ} {w w' : DMat ℝ} {b b' : List ℝ} (h : SameLayer L w b w' b') (F : FrontEnd) (X : DMat ℝ) :
    F.linear L w' b' X = F.linear L w b X := by
  cases F <;> simp only [FrontEnd.linear, h.rows, h.cols, h.len, h.weight, h.bias]

/-- **C124, networks.** Parameters that differ by what the projectors of the layers remove give the same network, in all front ends. -/
theorem C124_network {E : Emlp ℝ} {ps ps' : List (BlockParams ℝ)} {w w' : DMat ℝ} {b b' : List ℝ} (h : SameNet E ps w b ps' w' b') (F : FrontEnd) (c : ℝ) (act : ℝ → ℝ)
    (X : DMat ℝ) : F.apply W c act E ps' w' b' X = F.apply W c act E ps w b X := by
  have key : ∀ (B : List (Block ℝ)) (ps ps' : List (BlockParams ℝ)), ps'.length = ps.length →
      (∀ i (h : i < B.length) (h1 : i < ps.length) (h2 : i < ps'.length), SameLayer B[i].lin ps[i].w ps[i].b ps'[i].w ps'[i].b ∧ ps'[i].bw = ps[i].bw) →
      ∀ X, F.blocks W c act (B.zip ps') X = F.blocks W c act (B.zip ps) X := by
    intro B
    induction B with
    | nil => intro _ _ _ _ _; rfl
    | cons B0 B ih =>
      intro ps ps' hlen hb X
      match ps, ps', hlen with
      | [], [], _ => rfl
      | p :: ps, p' :: ps', hlen =>
        obtain ⟨h1, h2⟩ := hb 0 (by simp) (by simp) (by simp)
        have hB : F.block W c act B0 p' X = F.block W c act B0 p X := by
          have h2 : p'.bw = p.bw := h2
          have h3 : F.linear B0.lin p'.w p'.b X = F.linear B0.lin p.w p.b X := SameLayer.linear h1 F X
          unfold FrontEnd.block
          rw [h3, h2]
        rw [zip_cons_cons, zip_cons_cons, FrontEnd.blocks, FrontEnd.blocks]
        dsimp only
        rw [hB]
        cases F.block W c act B0 p X with
        | error e => rfl
        | ok Y => exact ih ps ps' (by simpa using hlen) (fun i a1 a2 a3 => hb (i + 1) (by simpa using a1) (by simpa using a2) (by simpa using a3)) Y
  unfold FrontEnd.apply
  rw [key E.blocks ps ps' h.len h.blocks X]
  cases F.blocks W c act (E.blocks.zip ps) X with
  | error e => rfl
  | ok Y => exact h.last.linear F Y

/-- **C124, training of networks.** Two runs of `Regressor` that start from parameters which differ by what the projectors remove, and nothing else: the
same log, optimizer states and epochs, and at the end of every sequence of calls parameters that still differ by just that; so the networks compute the same. -/
theorem C124_regressor {Θ τ γ : Type} [Add Θ] {E : Emlp ℝ} {ps : Θ → List (BlockParams ℝ)} {w : Θ → DMat ℝ} {b : Θ → List ℝ} {n : Θ}
    (hn : ∀ t, SameNet E (ps t) (w t) (b t) (ps (t + n)) (w (t + n)) (b (t + n))) (F : FrontEnd) (c : ℝ) (act : ℝ → ℝ)
    (learner : Learner Θ τ γ) (hL : learner.Translates n) (lrSched : ℝ → ℝ) {S : ℕ} {batches : ℕ → ℕ → DMat ℝ × DMat ℝ}
    {loaders : List (String × Option ℕ × List (DMat ℝ × DMat ℝ))} (e : ℕ) (s : RunSt Θ τ) (calls : List (TrainCall × (ℕ → Bool))) :
    (regressor learner lrSched (fun t X => F.apply W c act E (ps t) (w t) (b t) X) S batches loaders).run (e, { s with params := s.params + n }) calls =
      ((regressor learner lrSched (fun t X => F.apply W c act E (ps t) (w t) (b t) X) S batches loaders).run (e, s) calls).map
        fun r => (r.1, { r.2 with params := r.2.params + n }) := by
  have key : ∀ t mb, regressorLoss (fun t X => F.apply W c act E (ps t) (w t) (b t) X) (t + n) mb =
      regressorLoss (fun t X => F.apply W c act E (ps t) (w t) (b t) X) t mb := by
    intro t mb
    unfold regressorLoss
    dsimp only
    rw [C124_network (hn t) F c act]
  refine C124_training _ key (fun m hm t mb => ?_) (fun _ _ => rfl) hL e s calls
  have : m = ("MSE", regressorLoss fun t X => F.apply W c act E (ps t) (w t) (b t) X) := by simpa [regressor] using hm
  subst this
  exact key t mb

end

/-! ### Gradients -/

theorem projector_grad {n : ℕ} {P : DMat ℝ} {V : List ℝ → Prop} (hP : IsProjector n P V) {J : List ℝ → ℝ}
    (hJ : ∀ v v' : List ℝ, v.length = n → v'.length = n → P.mulVec v = P.mulVec v' → J v = J v') {x g : List ℝ} (hx : x.length = n)
    (hg : IsGradAt n J (fun _ => g) x) : P.mulVec g = g := by
  obtain ⟨hlen, L, hL, hform⟩ := hg
  dsimp only at hlen hform
  obtain ⟨M, hM⟩ : ∃ M : Matrix (Fin n) (Fin n) ℝ, M = P.toMatrix n n := ⟨_, rfl⟩
  have hMM : M * M = M := by
    rw [hM, ← DMat.toMatrix_mul P P hP.sq.1 hP.sq.2 hP.sq.2, hP.idem]
  have hMt : M.transpose = M := by
    ext i j
    have h1 : P.conjTranspose.e (i : ℕ) (j : ℕ) = P.e j i := DMat.of_e (by rw [hP.sq.2]; exact i.2) (by rw [hP.sq.1]; exact j.2)
    rw [hP.herm] at h1
    rw [hM]
    exact h1.symm
  have hmv : ∀ (v : List ℝ) (i : Fin n), (P.mulVec v).getD i 0 = M.mulVec (fun k : Fin n => v.getD k 0) i := by
    intro v i
    rw [DMat.getD_mulVec (by rw [hP.sq.1]; exact i.2), hP.sq.2, Finset.sum_range, hM]
    rfl
  obtain ⟨G, hG⟩ : ∃ G : Fin n → ℝ, G = fun k : Fin n => g.getD k 0 := ⟨_, rfl⟩
  obtain ⟨u, hu⟩ : ∃ u : Fin n → ℝ, u = G - M.mulVec G := ⟨_, rfl⟩
  have hMu : M.mulVec u = 0 := by
    rw [hu, Matrix.mulVec_sub, Matrix.mulVec_mulVec, hMM, sub_self]
  have hline := hL.hasLineDerivAt u
  have hconst : ∀ s : ℝ, J (List.ofFn ((fun i : Fin n => x.getD i 0) + s • u)) = J (List.ofFn fun i : Fin n => x.getD i 0) := by
    intro s
    refine hJ _ _ (by simp) (by simp) (DMat.vec_ext (by simp) fun i hi => ?_)
    have hi : i < n := by simpa [hP.sq.1] using hi
    have := hmv (List.ofFn ((fun i : Fin n => x.getD i 0) + s • u)) ⟨i, hi⟩
    have h2 := hmv (List.ofFn fun i : Fin n => x.getD i 0) ⟨i, hi⟩
    dsimp only at this h2
    rw [this, h2]
    simp only [getD_ofFn]
    rw [Matrix.mulVec_add, Matrix.mulVec_smul, hMu, smul_zero, add_zero]
  have hz : L u = 0 := by
    have h1 : HasDerivAt (fun s : ℝ => J (List.ofFn ((fun i : Fin n => x.getD i 0) + s • u))) (L u) 0 := hline
    rw [funext hconst] at h1
    exact h1.unique (hasDerivAt_const 0 _)
  rw [hform] at hz
  have h1 : dotProduct G u = 0 := by rw [hG]; exact hz
  have h2 : dotProduct (M.mulVec G) u = 0 := by
    rw [dotProduct_comm, ← Matrix.dotProduct_transpose_mulVec, hMt, hMu, dotProduct_zero]
  have h3 : dotProduct u u = 0 := by
    have : dotProduct (G - M.mulVec G) u = 0 := by rw [sub_dotProduct, h1, h2, sub_zero]
    rwa [← hu] at this
  have h4 : u = 0 := by
    funext i
    have := (Finset.sum_eq_zero_iff_of_nonneg fun j _ => mul_self_nonneg (u j)).1 h3 i (Finset.mem_univ i)
    exact mul_self_eq_zero.1 this
  refine DMat.vec_ext (by simp [hP.sq.1, hlen]) fun i hi => ?_
  have hi : i < n := by simpa [hP.sq.1] using hi
  have h5 := hmv g ⟨i, hi⟩
  have h6 := congrFun (hu.symm.trans h4) ⟨i, hi⟩
  rw [hG] at h6
  dsimp only [Pi.sub_apply, Pi.zero_apply] at h5 h6
  rw [h5]
  linarith

section
variable {W : World} {g : Gid} {N : ℕ} {custom : ∀ k g, AtomRep ℝ (W.d g) (W.usize k g)}
  {lie disc : ∀ g, List (Matrix (Fin (W.d g)) (Fin (W.d g)) ℝ)} {solve : ℕ → LinOp ℝ → Py (DMat ℝ)} {σ : NetSt ℝ} {a o : Rep}

theorem linear_same {L : LinearL ℝ} {w w' : DMat ℝ} {b b' : List ℝ} (h : SameLayer L w b w' b') (x : List ℝ) : L.apply w b x = L.apply w' b' x := by
  unfold LinearL.apply
  rw [h.rows, h.cols, h.len, h.weight, h.bias]

/-- **C124, gradients.** Let `Linear(repin,repout)` be built after any history of calls, inside any model with any loss that is differentiable in the parameters
of this layer.  Then the gradient of the loss with respect to the weights is an equivariant matrix, and that with respect to the bias an invariant vector. -/
theorem C124_gradient (hW : W.SingleOK g N) (ok : GroupsOK W custom lie disc)
    (hsol : SolverOK W (gensOf W (stdAtoms W custom) lie disc) solve) (hσ : NetReach W g (gensOf W (stdAtoms W custom) lie disc) solve σ)
    (ha : a.Over W g N) (ho : o.Over W g N) (hN : o.size W * a.size W ≤ N) {L : LinearL ℝ} {σ' : NetSt ℝ}
    (hL : LinearL.init W (gensOf W (stdAtoms W custom) lie disc) solve a o σ = .ok (L, σ')) {J : DMat ℝ → List ℝ → ℝ} (hJ : LossOf L J)
    {w : DMat ℝ} {b : List ℝ} (hw : w.rows = o.size W) (hw' : w.cols = a.size W) (hb : b.length = o.size W) {gw : DMat ℝ} {gb : List ℝ}
    (hg : LayerGrad J w b gw gb) {h : Matrix (Fin (W.d g)) (Fin (W.d g)) ℝ} (hh : Generated (lie g) (disc g) h) :
    gw.mul (a.mat (Interp.elem W custom g h)) = (o.mat (Interp.elem W custom g h)).mul gw ∧ (o.mat (Interp.elem W custom g h)).mulVec gb = gb := by
  obtain ⟨nin, nout, ⟨r, hr, hz, hint, hPw⟩, hPb⟩ := (LinearL.init_exact hW gensOf_sized hsol ha ho hN σ (hσ.ok hsol) L σ' hL).2
  obtain ⟨g1, g2, gW, gB⟩ := hg
  rw [hw] at g1
  rw [hw'] at g2
  rw [hw, hw', ← hz] at gW
  rw [hb] at gB
  have hl : gw.flat.length = r.size W := by rw [DMat.length_flat, g1, g2, hz]
  have e1 : L.Pw.sem.mulVec gw.flat = gw.flat := by
    refine projector_grad hPw (fun v v' hv hv' e => ?_) (by rw [DMat.length_flat, hw, hw', hz]) gW
    refine hJ _ _ _ _ nout.symm nin.symm (hb.trans nout.symm) nout.symm nin.symm (hb.trans nout.symm) fun x _ =>
      linear_same (L := L) (w := DMat.unflat (o.size W) (a.size W) v) (w' := DMat.unflat (o.size W) (a.size W) v') ⟨rfl, rfl, rfl, ?_, rfl⟩ x
    rw [DMat.unflat_flat (by rw [hv', hz]), DMat.unflat_flat (by rw [hv, hz]), e]
  have e2 : L.Pb.sem.mulVec gb = gb :=
    projector_grad hPb (fun v v' hv hv' e => hJ _ _ _ _ (hw.trans nout.symm) (hw'.trans nin.symm) (hv.trans nout.symm) (hw.trans nout.symm) (hw'.trans nin.symm)
      (hv'.trans nout.symm) fun x _ => linear_same ⟨rfl, rfl, hv'.trans hv.symm, rfl, e.symm⟩ x) hb gB
  exact ⟨(hint _ (elem_dual ok hh) gw g1 g2).1 (elem_fixes ok hh r hr.wf _ hl ((hPw.fix _ hl).2 e1)),
    elem_fixes ok hh o ho.wf _ gB.1 ((hPb.fix _ gB.1).2 e2)⟩

/-- **C124, gradient descent.** Gradient descent with any sequence of losses (a minibatch each) and any learning rates moves the weights and the bias
by equivariant matrices and invariant vectors only: what they differ by from their initial values is at all times equivariant. -/
theorem C124_descent (hW : W.SingleOK g N) (ok : GroupsOK W custom lie disc)
    (hsol : SolverOK W (gensOf W (stdAtoms W custom) lie disc) solve) (hσ : NetReach W g (gensOf W (stdAtoms W custom) lie disc) solve σ)
    (ha : a.Over W g N) (ho : o.Over W g N) (hN : o.size W * a.size W ≤ N) {L : LinearL ℝ} {σ' : NetSt ℝ}
    (hL : LinearL.init W (gensOf W (stdAtoms W custom) lie disc) solve a o σ = .ok (L, σ')) {J : ℕ → DMat ℝ → List ℝ → ℝ} (hJ : ∀ k, LossOf L (J k))
    {w gw : ℕ → DMat ℝ} {b gb : ℕ → List ℝ} {lr : ℕ → ℝ} (hw : (w 0).rows = o.size W) (hw' : (w 0).cols = a.size W) (hb : (b 0).length = o.size W)
    (hg : ∀ k, LayerGrad (J k) (w k) (b k) (gw k) (gb k))
    (hstep : ∀ k, w (k + 1) = (w k).add (DMat.smul (-lr k) (gw k)) ∧ b (k + 1) = zipWith (· + ·) (b k) ((gb k).map (-lr k * ·))) (k : ℕ) :
    ∃ (M : DMat ℝ) (c : List ℝ), w k = (w 0).add M ∧ M.rows = o.size W ∧ M.cols = a.size W ∧ b k = zipWith (· + ·) (b 0) c ∧ c.length = o.size W ∧
      ∀ h, Generated (lie g) (disc g) h →
        M.mul (a.mat (Interp.elem W custom g h)) = (o.mat (Interp.elem W custom g h)).mul M ∧ (o.mat (Interp.elem W custom g h)).mulVec c = c := by
  have hshape : ∀ k, (w k).rows = o.size W ∧ (w k).cols = a.size W ∧ (b k).length = o.size W := by
    intro k
    induction k with
    | zero => exact ⟨hw, hw', hb⟩
    | succ k ih =>
      rw [(hstep k).1, (hstep k).2]
      refine ⟨ih.1, ih.2.1, ?_⟩
      have := (hg k).2.2.2.1
      dsimp only at this
      simp [ih.2.2, this]
  induction k with
  | zero =>
    refine ⟨DMat.zero (o.size W) (a.size W), replicate (o.size W) 0, ?_, rfl, rfl, ?_, by simp, fun h hh => ⟨?_, ?_⟩⟩
    · refine DMat.ext rfl rfl fun i j hi hj => ?_
      have h1 : ((w 0).add (DMat.zero (o.size W) (a.size W))).e i j = (w 0).e i j + (DMat.zero (o.size W) (a.size W)).e i j := DMat.of_e hi hj
      have h2 : (DMat.zero (R := ℝ) (o.size W) (a.size W)).e i j = 0 := DMat.of_e (hw ▸ hi) (hw' ▸ hj)
      rw [h1, h2, add_zero]
    · refine DMat.vec_ext (by simp [hb]) fun i hi => ?_
      rw [hb] at hi
      rw [getD_eq_getElem _ _ (by simpa [hb] using hi), getD_eq_getElem _ _ (by simpa [hb] using hi)]
      simp
    · have hA : (a.mat (Interp.elem W custom g h)).IsSq (a.size W) := Rep.mat_sq (at_sized _) ha.wf
      have hB : (o.mat (Interp.elem W custom g h)).IsSq (o.size W) := Rep.mat_sq (at_sized _) ho.wf
      refine DMat.ext hB.1.symm hA.2 fun i j hi hj => ?_
      have hi : i < o.size W := hi
      have hj : j < a.size W := by rw [← hA.2]; exact hj
      refine (DMat.of_e hi (by rw [hA.2]; exact hj)).trans (Eq.trans ?_ (DMat.of_e (by rw [hB.1]; exact hi) hj).symm)
      rw [Finset.sum_eq_zero, Finset.sum_eq_zero]
      · intro l hl
        rw [show (DMat.zero (R := ℝ) (o.size W) (a.size W)).e l j = 0 from DMat.of_e (by rw [← hB.2]; simpa using hl) hj, mul_zero]
      · intro l hl
        rw [show (DMat.zero (R := ℝ) (o.size W) (a.size W)).e i l = 0 from DMat.of_e hi (by simpa using hl), zero_mul]
    · have hB : (o.mat (Interp.elem W custom g h)).IsSq (o.size W) := Rep.mat_sq (at_sized _) ho.wf
      rw [DMat.mulVec_replicate_zero, hB.1]
  | succ k ih =>
    obtain ⟨M, c, e1, m1, m2, e2, c1, hM⟩ := ih
    obtain ⟨s1, s2, s3⟩ := hshape k
    have q1 : (gw k).rows = o.size W := (hg k).1.trans s1
    have q2 : (gw k).cols = a.size W := (hg k).2.1.trans s2
    have q3 : (gb k).length = o.size W := (hg k).2.2.2.1.trans s3
    refine ⟨M.add (DMat.smul (-lr k) (gw k)), zipWith (· + ·) c ((gb k).map (-lr k * ·)), ?_, m1, m2, ?_, by simp [c1, q3], fun h hh => ?_⟩
    · rw [(hstep k).1, e1]
      refine DMat.ext rfl rfl fun i j hi hj => ?_
      have hi : i < (w 0).rows := hi
      have hj : j < (w 0).cols := hj
      have t1 : (((w 0).add M).add (DMat.smul (-lr k) (gw k))).e i j = ((w 0).add M).e i j + (DMat.smul (-lr k) (gw k)).e i j := DMat.of_e hi hj
      have t2 : ((w 0).add M).e i j = (w 0).e i j + M.e i j := DMat.of_e hi hj
      have t3 : ((w 0).add (M.add (DMat.smul (-lr k) (gw k)))).e i j = (w 0).e i j + (M.add (DMat.smul (-lr k) (gw k))).e i j := DMat.of_e hi hj
      have t4 : (M.add (DMat.smul (-lr k) (gw k))).e i j = M.e i j + (DMat.smul (-lr k) (gw k)).e i j := DMat.of_e (by rw [m1, ← hw]; exact hi) (by rw [m2, ← hw']; exact hj)
      rw [t1, t2, t3, t4, add_assoc]
    · rw [(hstep k).2, e2]
      refine List.ext_getElem (by simp [hb, c1, q3]) fun i hi hi' => ?_
      simp [add_assoc]
    · obtain ⟨d1, d2⟩ := C124_gradient hW ok hsol hσ ha ho hN hL (hJ k) s1 s2 s3 (hg k) hh
      obtain ⟨d3, d4⟩ := hM h hh
      have hA : (a.mat (Interp.elem W custom g h)).IsSq (a.size W) := Rep.mat_sq (at_sized _) ha.wf
      have hB : (o.mat (Interp.elem W custom g h)).IsSq (o.size W) := Rep.mat_sq (at_sized _) ho.wf
      constructor
      · have key : ∀ X Y : DMat ℝ, X.rows = o.size W → X.cols = a.size W → Y.rows = o.size W → Y.cols = a.size W →
            (X.add Y).mul (a.mat (Interp.elem W custom g h)) = (X.mul (a.mat (Interp.elem W custom g h))).add (Y.mul (a.mat (Interp.elem W custom g h))) ∧
            (o.mat (Interp.elem W custom g h)).mul (X.add Y) = ((o.mat (Interp.elem W custom g h)).mul X).add ((o.mat (Interp.elem W custom g h)).mul Y) := by
          intro X Y x1 x2 y1 y2
          constructor
          · refine DMat.ext rfl rfl fun i j hi hj => ?_
            have hi' : i < Y.rows := by rw [y1, ← x1]; exact hi
            refine (DMat.of_e hi hj).trans (Eq.trans ?_ (DMat.of_e (f := fun i j => (X.mul (a.mat (Interp.elem W custom g h))).e i j + (Y.mul (a.mat (Interp.elem W custom g h))).e i j) hi hj).symm)
            beta_reduce
            rw [show (X.mul (a.mat (Interp.elem W custom g h))).e i j = _ from DMat.of_e hi hj, show (Y.mul (a.mat (Interp.elem W custom g h))).e i j = _ from DMat.of_e hi' hj]
            rw [y2, show (X.add Y).cols = X.cols from rfl, x2, ← Finset.sum_add_distrib]
            refine Finset.sum_congr rfl fun l hl => ?_
            rw [show (X.add Y).e i l = X.e i l + Y.e i l from DMat.of_e hi (by rw [x2]; simpa using hl), add_mul]
          · refine DMat.ext rfl rfl fun i j hi hj => ?_
            have hj' : j < Y.cols := by rw [y2, ← x2]; exact hj
            refine (DMat.of_e hi hj).trans (Eq.trans ?_ (DMat.of_e (f := fun i j => ((o.mat (Interp.elem W custom g h)).mul X).e i j + ((o.mat (Interp.elem W custom g h)).mul Y).e i j) hi hj).symm)
            beta_reduce
            rw [show ((o.mat (Interp.elem W custom g h)).mul X).e i j = _ from DMat.of_e hi hj, show ((o.mat (Interp.elem W custom g h)).mul Y).e i j = _ from DMat.of_e hi hj']
            rw [hB.2, ← Finset.sum_add_distrib]
            refine Finset.sum_congr rfl fun l hl => ?_
            rw [show (X.add Y).e l j = X.e l j + Y.e l j from DMat.of_e (by rw [x1]; simpa using hl) hj, mul_add]
        obtain ⟨k1, k2⟩ := key M (DMat.smul (-lr k) (gw k)) m1 m2 q1 q2
        rw [k1, k2, d3, Act.smul_mul_mat, d1]
        congr 1
        refine DMat.ext rfl rfl fun i j hi hj => ?_
        have hi : i < (o.mat (Interp.elem W custom g h)).rows := hi
        have hj : j < (gw k).cols := hj
        refine (DMat.of_e hi hj).trans (Eq.trans ?_ (DMat.of_e hi hj).symm)
        rw [show ((o.mat (Interp.elem W custom g h)).mul (gw k)).e i j = _ from DMat.of_e hi hj, Finset.mul_sum]
        refine Finset.sum_congr rfl fun l hl => ?_
        rw [show (DMat.smul (-lr k) (gw k)).e l j = -lr k * (gw k).e l j from DMat.of_e (by rw [q1, ← hB.2]; simpa using hl) hj]
        ring
      · rw [DMat.mulVec_add _ (by simp [c1, q3]), d4]
        congr 1
        have : (o.mat (Interp.elem W custom g h)).mulVec ((gb k).map (-lr k * ·)) = ((o.mat (Interp.elem W custom g h)).mulVec (gb k)).map (-lr k * ·) := by
          refine DMat.vec_ext (by simp) fun i hi => ?_
          have hi : i < (o.mat (Interp.elem W custom g h)).rows := by simpa using hi
          rw [DMat.getD_mulVec hi, getD_eq_getElem _ _ (by simpa using hi), getElem_map, ← getD_eq_getElem _ 0 (by simpa using hi), DMat.getD_mulVec hi, Finset.mul_sum]
          refine Finset.sum_congr rfl fun l hl => ?_
          have hl : l < (gb k).length := by rw [q3, ← hB.2]; simpa using hl
          rw [getD_eq_getElem _ _ (by simpa using hl), getElem_map, getD_eq_getElem _ _ hl]
          ring
        rw [this, d2]

end

/-! ### The hypotheses are met -/

/-- A function of vectors that is differentiable has a gradient. -/
theorem exists_isGradAt {n : ℕ} {H : List ℝ → ℝ} {x : List ℝ} (h : DifferentiableAt ℝ (fun v : Fin n → ℝ => H (List.ofFn v)) (fun i => x.getD i 0)) :
    ∃ g : List ℝ, IsGradAt n H (fun _ => g) x := by
  refine ⟨List.ofFn fun i => fderiv ℝ (fun v : Fin n → ℝ => H (List.ofFn v)) (fun i => x.getD i 0) (Pi.single i 1), by simp, _, h.hasFDerivAt, fun v => ?_⟩
  conv_lhs => rw [← Finset.univ_sum_single v]
  rw [map_sum]
  refine Finset.sum_congr rfl fun i _ => ?_
  rw [getD_ofFn, show Pi.single (M := fun _ : Fin n => ℝ) i (v i) = v i • Pi.single i 1 by rw [← Pi.single_smul, smul_eq_mul, mul_one], map_smul, smul_eq_mul, mul_comm]

/-- The squared error of a layer on any data is a loss as in `C124_gradient`, with gradients at all weights and biases. -/
theorem C124_meets (L : LinearL ℝ) (hPw : L.Pw.sem.IsSq (L.nout * L.nin)) (hPb : L.Pb.sem.IsSq L.nout) (D : List (List ℝ × List ℝ)) (hD : ∀ xy ∈ D, xy.1.length = L.nin) :
    LossOf L (layerError L D) ∧ ∀ (w : DMat ℝ) (b : List ℝ), w.rows = L.nout → w.cols = L.nin → b.length = L.nout →
      ∃ gw gb, LayerGrad (layerError L D) w b gw gb := by
  constructor
  · intro w b w' b' _ _ _ _ _ _ h
    unfold layerError
    congr 1
    refine map_congr_left fun xy hxy => ?_
    rw [h _ (hD xy hxy)]
  · intro w b h1 h2 h3
    have e : ∀ (w : DMat ℝ) (b : List ℝ), w.rows = L.nout → w.cols = L.nin → b.length = L.nout → layerError L D w b =
        (D.map fun xy => ∑ i ∈ Finset.range L.nout,
          ((∑ j ∈ Finset.range L.nin, (∑ k ∈ Finset.range (L.nout * L.nin), L.Pw.sem.e (i * L.nin + j) k * w.flat.getD k 0) * xy.1.getD j 0 +
            ∑ k ∈ Finset.range L.nout, L.Pb.sem.e i k * b.getD k 0) - xy.2.getD i 0) ^ 2).sum := by
      intro w b h1 h2 h3
      unfold layerError
      congr 1
      refine map_congr_left fun xy hxy => ?_
      unfold LinearL.apply
      rw [if_pos ⟨h1, h2, h3, hD xy hxy⟩]
      refine Finset.sum_congr rfl fun i hi => ?_
      have hi : i < L.nout := by simpa using hi
      have hi2 : i < (DMat.unflat w.rows w.cols (L.Pw.sem.mulVec w.flat)).rows := h1.symm ▸ hi
      have hi3 : i < L.Pb.sem.rows := by rw [hPb.1]; exact hi
      rw [getD_eq_getElem _ _ (by rw [length_zipWith, DMat.length_mulVec, DMat.length_mulVec]; exact lt_min hi2 hi3), getElem_zipWith, ← getD_eq_getElem _ 0, ← getD_eq_getElem _ 0,
        DMat.getD_mulVec hi2, DMat.getD_mulVec hi3, hPb.2]
      congr 3
      rw [show (DMat.unflat w.rows w.cols (L.Pw.sem.mulVec w.flat)).cols = w.cols from rfl, h2]
      refine Finset.sum_congr rfl fun j hj => ?_
      have hj : j < L.nin := by simpa using hj
      rw [show (DMat.unflat w.rows L.nin (L.Pw.sem.mulVec w.flat)).e i j = _ from DMat.of_e (h1.symm ▸ hi) hj,
        DMat.getD_mulVec (by rw [hPw.1]; exact mul_add_lt hi hj), hPw.2]
    obtain ⟨g1, hg1⟩ := exists_isGradAt (n := w.rows * w.cols) (H := fun v => layerError L D (DMat.unflat w.rows w.cols v) b) (x := w.flat) (by
      have : (fun v : Fin (w.rows * w.cols) → ℝ => layerError L D (DMat.unflat w.rows w.cols (List.ofFn v)) b) = fun v =>
          (D.map fun xy => ∑ i ∈ Finset.range L.nout,
          ((∑ j ∈ Finset.range L.nin, (∑ k ∈ Finset.range (L.nout * L.nin), L.Pw.sem.e (i * L.nin + j) k * (List.ofFn v).getD k 0) * xy.1.getD j 0 +
            ∑ k ∈ Finset.range L.nout, L.Pb.sem.e i k * b.getD k 0) - xy.2.getD i 0) ^ 2).sum := by
        funext v
        rw [e (DMat.unflat w.rows w.cols (List.ofFn v)) b h1 h2 h3, DMat.unflat_flat (by simp)]
      rw [this]
      have hc : ∀ k, Differentiable ℝ fun v : Fin (w.rows * w.cols) → ℝ => (List.ofFn v).getD k 0 := by
        intro k
        by_cases hk : k < w.rows * w.cols
        · have : (fun v : Fin (w.rows * w.cols) → ℝ => (List.ofFn v).getD k 0) = fun v => v ⟨k, hk⟩ := by
            funext v; rw [getD_eq_getElem _ _ (by simpa using hk)]; simp
          rw [this]; fun_prop
        · have : (fun v : Fin (w.rows * w.cols) → ℝ => (List.ofFn v).getD k 0) = fun v => 0 := by
            funext v; rw [getD_eq_default _ _ (by simpa using hk)]
          rw [this]; fun_prop
      refine Differentiable.differentiableAt ?_
      clear this hD e
      induction D with
      | nil => simp
      | cons xy D ih =>
        simp only [map_cons, sum_cons]
        refine Differentiable.add ?_ ih
        fun_prop)
    obtain ⟨g2, hg2⟩ := exists_isGradAt (n := b.length) (H := fun v => layerError L D w v) (x := b) (by
      have : (fun v : Fin b.length → ℝ => layerError L D w (List.ofFn v)) = fun v =>
          (D.map fun xy => ∑ i ∈ Finset.range L.nout,
          ((∑ j ∈ Finset.range L.nin, (∑ k ∈ Finset.range (L.nout * L.nin), L.Pw.sem.e (i * L.nin + j) k * w.flat.getD k 0) * xy.1.getD j 0 +
            ∑ k ∈ Finset.range L.nout, L.Pb.sem.e i k * (List.ofFn v).getD k 0) - xy.2.getD i 0) ^ 2).sum := by
        funext v
        rw [e w _ h1 h2 (by simpa using h3)]
      rw [this]
      have hc : ∀ k, Differentiable ℝ fun v : Fin b.length → ℝ => (List.ofFn v).getD k 0 := by
        intro k
        by_cases hk : k < b.length
        · have : (fun v : Fin b.length → ℝ => (List.ofFn v).getD k 0) = fun v => v ⟨k, hk⟩ := by
            funext v; rw [getD_eq_getElem _ _ (by simpa using hk)]; simp
          rw [this]; fun_prop
        · have : (fun v : Fin b.length → ℝ => (List.ofFn v).getD k 0) = fun v => 0 := by
            funext v; rw [getD_eq_default _ _ (by simpa using hk)]
          rw [this]; fun_prop
      refine Differentiable.differentiableAt ?_
      clear this hD e hg1
      induction D with
      | nil => simp
      | cons xy D ih =>
        simp only [map_cons, sum_cons]
        refine Differentiable.add ?_ ih
        fun_prop)
    refine ⟨DMat.unflat w.rows w.cols g1, g2, rfl, rfl, ?_, hg2⟩
    rw [DMat.unflat_flat (by exact hg1.1)]
    exact hg1

/-- So all layers that can be built, with their squared error on any data, meet the hypotheses of `C124_gradient`. -/
example {W : World} {g : Gid} {N : ℕ} {custom : ∀ k g, AtomRep ℝ (W.d g) (W.usize k g)} {lie disc : ∀ g, List (Matrix (Fin (W.d g)) (Fin (W.d g)) ℝ)}
    {solve : ℕ → LinOp ℝ → Py (DMat ℝ)} {σ : NetSt ℝ} {a o : Rep} (hW : W.SingleOK g N)
    (hsol : SolverOK W (gensOf W (stdAtoms W custom) lie disc) solve) (hσ : NetReach W g (gensOf W (stdAtoms W custom) lie disc) solve σ)
    (ha : a.Over W g N) (ho : o.Over W g N) (hN : o.size W * a.size W ≤ N) {L : LinearL ℝ} {σ' : NetSt ℝ}
    (hL : LinearL.init W (gensOf W (stdAtoms W custom) lie disc) solve a o σ = .ok (L, σ')) (D : List (List ℝ × List ℝ)) (hD : ∀ xy ∈ D, xy.1.length = a.size W)
    (w : DMat ℝ) (b : List ℝ) (hw : w.rows = o.size W) (hw' : w.cols = a.size W) (hb : b.length = o.size W) :
    LossOf L (layerError L D) ∧ ∃ gw gb, LayerGrad (layerError L D) w b gw gb := by
  obtain ⟨nin, nout, ⟨r, hr, hz, hint, hPw⟩, hPb⟩ := (LinearL.init_exact hW gensOf_sized hsol ha ho hN σ (hσ.ok hsol) L σ' hL).2
  obtain ⟨h1, h2⟩ := C124_meets L (by rw [nout, nin, ← hz]; exact hPw.sq) (by rw [nout]; exact hPb.sq) D (by rw [nin]; exact hD)
  exact ⟨h1, h2 w b (hw.trans nout.symm) (hw'.trans nin.symm) (hb.trans nout.symm)⟩

/-- Adding to the weights and the bias of a layer what its projectors send to zero. -/
theorem sameLayer_add {L : LinearL ℝ} {w n : DMat ℝ} {b c : List ℝ} (h1 : n.rows = w.rows) (h2 : n.cols = w.cols) (h3 : c.length = b.length)
    (hn : L.Pw.sem.mulVec n.flat = replicate L.Pw.sem.rows 0) (hc : L.Pb.sem.mulVec c = replicate L.Pb.sem.rows 0) :
    SameLayer L w b (w.add n) (zipWith (· + ·) b c) := by
  have z : ∀ (m : ℕ) (v : List ℝ), v.length = m → zipWith (· + ·) v (replicate m (0 : ℝ)) = v := by
    intro m v hv
    refine List.ext_getElem (by simp [hv]) fun i hi hi' => ?_
    simp
  have e : (w.add n).flat = zipWith (· + ·) w.flat n.flat := by
    refine DMat.vec_ext (by rw [length_zipWith, DMat.length_flat, DMat.length_flat, DMat.length_flat, h1, h2, min_self]; rfl) fun i hi => ?_
    rw [DMat.length_flat] at hi
    obtain ⟨a, b, ha, hb, rfl⟩ := exists_mul_add (show i < w.rows * w.cols from hi)
    have t1 := DMat.getD_flat (w.add n) (i := a) (j := b) ha hb
    have t2 := DMat.getD_flat w ha hb
    have t3 := DMat.getD_flat n (i := a) (j := b) (by rw [h1]; exact ha) (by rw [h2]; exact hb)
    rw [h2] at t3
    have l1 : a * w.cols + b < w.flat.length := by rw [DMat.length_flat]; exact hi
    have l2 : a * w.cols + b < n.flat.length := by rw [DMat.length_flat, h1, h2]; exact hi
    refine t1.trans ((DMat.of_e ha hb).trans ?_)
    rw [getD_eq_getElem _ _ (by rw [length_zipWith]; exact lt_min l1 l2), getElem_zipWith, ← getD_eq_getElem _ 0 l1, ← getD_eq_getElem _ 0 l2, t2, t3]
  refine ⟨rfl, rfl, by simp [h3], ?_, ?_⟩
  · rw [e, DMat.mulVec_add _ (by rw [DMat.length_flat, DMat.length_flat, h1, h2]), hn, z _ _ (by simp)]
  · rw [DMat.mulVec_add _ h3.symm, hc, z _ _ (by simp)]

/-- Gradient descent with exact derivatives translates, by every number. -/
theorem gradientDescent_translates (n : ℝ) : gradientDescent.Translates n where
  grad f t hf := by
    show (f (t + n) >>= fun v => _) = (f t >>= fun v => _)
    rw [hf]
    cases f t with
    | error e => rfl
    | ok v =>
      show Except.ok _ = Except.ok _
      congr 2
      refine (deriv_comp_add_const _ n t).symm.trans ?_
      congr 1
      funext s
      rw [hf]
  update lr g s t := by
    show (_, _) = (_, _)
    congr 1
    show t + n - lr * g = t - lr * g + n
    ring

/-- Gradient descent on any network, along a line of weights of the last layer which its projector does not see: `SameNet` is met. -/
example {W : World} (E : Emlp ℝ) (ps : List (BlockParams ℝ)) (w₀ N : DMat ℝ) (b : List ℝ) (h1 : N.rows = w₀.rows) (h2 : N.cols = w₀.cols) (hN : E.last.Pw.sem.mulVec N.flat = replicate E.last.Pw.sem.rows 0)
    (n : ℝ) (F : FrontEnd) (c : ℝ) (act : ℝ → ℝ) (lrSched : ℝ → ℝ) (S : ℕ) (batches : ℕ → ℕ → DMat ℝ × DMat ℝ)
    (loaders : List (String × Option ℕ × List (DMat ℝ × DMat ℝ))) (e : ℕ) (s : RunSt ℝ Unit) (calls : List (TrainCall × (ℕ → Bool))) :
    (regressor gradientDescent lrSched (fun t X => F.apply W c act E ps (w₀.add (DMat.smul t N)) b X) S batches loaders).run (e, { s with params := s.params + n }) calls =
      ((regressor gradientDescent lrSched (fun t X => F.apply W c act E ps (w₀.add (DMat.smul t N)) b X) S batches loaders).run (e, s) calls).map
        fun r => (r.1, { r.2 with params := r.2.params + n }) := by
  refine C124_regressor (E := E) (ps := fun _ => ps) (w := fun t => w₀.add (DMat.smul t N)) (b := fun _ => b) (fun t => ⟨rfl, fun i _ _ _ => ⟨⟨rfl, rfl, rfl, rfl, rfl⟩, rfl⟩, ?_⟩)
    F c act _ (gradientDescent_translates n) lrSched e s calls
  have hs : (DMat.smul n N).flat = N.flat.map (n * ·) := by
    unfold DMat.flat
    rw [map_flatMap]
    refine flatMap_congr fun i hi => ?_
    rw [map_map]
    refine map_congr_left fun j hj => ?_
    exact DMat.of_e (by simpa [DMat.smul, DMat.of] using hi) (by simpa [DMat.smul, DMat.of] using hj)
  have hP : E.last.Pw.sem.mulVec (DMat.smul n N).flat = replicate E.last.Pw.sem.rows 0 := by
    refine DMat.vec_ext (by simp) fun i hi => ?_
    have hi : i < E.last.Pw.sem.rows := by simpa using hi
    have h0 : (E.last.Pw.sem.mulVec N.flat).getD i 0 = 0 := by rw [hN, getD_eq_getElem _ _ (by simpa using hi)]; simp
    rw [DMat.getD_mulVec hi] at h0 ⊢
    rw [getD_eq_getElem _ _ (by simpa using hi), getElem_replicate, hs]
    refine Eq.trans ?_ (mul_zero n)
    rw [show n * (0 : ℝ) = n * _ from congrArg (n * ·) h0.symm, Finset.mul_sum]
    refine Finset.sum_congr rfl fun l _ => ?_
    by_cases hl : l < N.flat.length
    · rw [getD_eq_getElem _ _ (by simpa using hl), getElem_map, getD_eq_getElem _ _ hl]; ring
    · rw [getD_eq_default _ _ (by simpa using hl), getD_eq_default (l := N.flat) _ (by simpa using hl)]; ring
  have key := sameLayer_add (L := E.last) (w := w₀.add (DMat.smul t N)) (n := DMat.smul n N) (b := b) (c := replicate b.length 0) h1 h2 (by simp) hP
    (by rw [DMat.mulVec_replicate_zero])
  have e1 : w₀.add (DMat.smul (t + n) N) = (w₀.add (DMat.smul t N)).add (DMat.smul n N) := by
    refine DMat.ext rfl rfl fun i j hi hj => ?_
    have hi : i < w₀.rows := hi
    have hj : j < w₀.cols := hj
    have hi' : i < N.rows := by rw [h1]; exact hi
    have hj' : j < N.cols := by rw [h2]; exact hj
    have sm : ∀ c : ℝ, (DMat.smul c N).e i j = c * N.e i j := fun c => DMat.of_e hi' hj'
    refine (DMat.of_e hi hj).trans (Eq.trans ?_ (DMat.of_e (f := fun i j => (w₀.add (DMat.smul t N)).e i j + (DMat.smul n N).e i j) hi hj).symm)
    beta_reduce
    rw [show (w₀.add (DMat.smul t N)).e i j = w₀.e i j + (DMat.smul t N).e i j from DMat.of_e hi hj, sm, sm, sm]
    ring
  have e2 : zipWith (· + ·) b (replicate b.length (0 : ℝ)) = b := List.ext_getElem (by simp) fun i _ _ => by simp
  rw [e2] at key
  show SameLayer E.last _ _ _ _
  rw [e1]
  exact key

end Verif
