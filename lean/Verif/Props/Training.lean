import Verif.Lemmas.Training
import Verif.Lemmas.ApproxLayer
import Verif.Props.FrontEnds
import Verif.Props.HamiltonianNets
import Verif.Props.Augment
import Verif.Props.DatasetReps
import Mathlib.Analysis.SpecialFunctions.Sigmoid

/-!
# C121: training an equivariant network does not see the symmetry
-/
namespace Verif
open List

section
variable {Θ σ γ : Type}

/-- **C121, any model.** Let a model map moved batches to moved predictions, for all values of the parameters: `A` moves the inputs and `B` the
predictions, `B` by orthogonal matrices.  Then for every optimizer, learning rate schedule, logging times and sequence of calls, training and
testing on the moved batches (with the labels moved by `B`) gives the same parameters, optimizer state, epoch and logged metrics, or raises the same. -/
theorem C121_training (learner : Learner Θ σ γ) (lrSched : ℝ → ℝ) {model : Θ → DMat ℝ → Py (DMat ℝ)} {n S : ℕ}
    {R : DMat ℝ × DMat ℝ → DMat ℝ × DMat ℝ → Prop}
    (hR : ∀ mb mb', R mb mb' → mb.2.cols = n ∧ mb.2.rows = mb.1.rows ∧
      (∀ t P, model t mb.1 = .ok P → P.rows = mb.1.rows ∧ P.cols = n) ∧ ∃ A B : ℕ → DMat ℝ, mb' = (moveRows A mb.1, moveRows B mb.2) ∧
      (∀ t, model t (moveRows A mb.1) = (model t mb.1).map (moveRows B)) ∧ ∀ i < mb.1.rows, (B i).IsSq n ∧ (B i).transpose.mul (B i) = DMat.one n)
    {batches batches' : ℕ → ℕ → DMat ℝ × DMat ℝ} (hb : ∀ e i, i < S → R (batches e i) (batches' e i))
    {loaders loaders' : List (String × Option ℕ × List (DMat ℝ × DMat ℝ))} (hl : MovedLoaders R loaders loaders')
    (s : ℕ × RunSt Θ σ) (calls : List (TrainCall × (ℕ → Bool))) :
    (regressor learner lrSched model S batches' loaders').run s calls = (regressor learner lrSched model S batches loaders).run s calls := by
  have key : ∀ mb mb', R mb mb' → ∀ t, regressorLoss model t mb' = regressorLoss model t mb := by
    intro mb mb' h t
    obtain ⟨h1, h2, shape, A, B, rfl, h3, h4⟩ := hR mb mb' h
    unfold regressorLoss
    dsimp only
    rw [h3 t]
    cases hP : model t mb.1 with
    | error e => rfl
    | ok P =>
      obtain ⟨p1, p2⟩ := shape t P hP
      exact mse_moveRows p2 h1 (h2.trans p1.symm) (by rw [p1]; exact h4)
  refine TrainerObj.Agree.run (T := regressor learner lrSched model S batches loaders) (T' := regressor learner lrSched model S batches' loaders')
    ⟨rfl, rfl, rfl, fun e i hi t => key _ _ (hb e i hi) t, fun t => ?_, fun _ _ => rfl⟩ calls s
  refine allMetrics_congr t (by unfold regressor; exact .cons rfl .nil) ?_ ?_
  · refine hl.imp fun a a' h => ⟨h.1, h.2.1, fun m m' hm => ?_⟩
    have : (m, m') = (("MSE", regressorLoss model), ("MSE", regressorLoss model)) := by simpa [regressor] using hm
    obtain ⟨rfl, rfl⟩ := Prod.mk.inj this
    exact h.2.2.imp fun b b' hbb => key b b' hbb t
  · exact hl.imp fun a a' h => h.2.2.length_eq.symm

end

section
variable {W : World} {g : Gid} {N : ℕ} {custom : ∀ k g, AtomRep ℝ (W.d g) (W.usize k g)}
  {lie disc : ∀ g, List (Matrix (Fin (W.d g)) (Fin (W.d g)) ℝ)} {solve : ℕ → LinOp ℝ → Py (DMat ℝ)} {rng : Rng} {σ σ' : NetSt ℝ}
  {ein eout : Expr} {rin rout : Rep} {fuel b L : ℕ} {ch : Ch} {ws : List ℕ} {E : Emlp ℝ} {Θ τ γ : Type}

/-- A network that returns once returns for all parameters and batches, row by row. -/
theorem emlp_returns (hW : W.SingleOK g N) (hd : 2 ≤ W.d g) (hdN : W.d g ≤ N) (ok : GroupsOK W custom lie disc)
    (hsol : SolverOK W (gensOf W (stdAtoms W custom) lie disc) solve) (hσ : NetReach W g (gensOf W (stdAtoms W custom) lie disc) solve σ)
    (hrng : RngOK rng) (hin : RepArg W g N ein rin) (hout : RepArg W g N eout rout) (hch : ch.Widths W g N b L ws)
    (hbi : ein.dim W g ≤ b) (hbo : eout.dim W g ≤ b) (hbf : b < fuel) (hN : (2 * b) * (2 * b) ≤ N) (F : FrontEnd)
    (hE : F.emlp W (gensOf W (stdAtoms W custom) lie disc) solve rng fuel rin rout g ch L σ = .ok (E, σ')) (c : ℝ) (act : ℝ → ℝ)
    {ps0 : List (BlockParams ℝ)} {w0 : DMat ℝ} {β0 : List ℝ} (hp0 : E.Shaped ps0 w0 β0) {X0 P0 : DMat ℝ} (h0 : F.apply W c act E ps0 w0 β0 X0 = .ok P0)
    {ps : List (BlockParams ℝ)} {w : DMat ℝ} {β : List ℝ} (hp : E.Shaped ps w β) :
    (∀ X : DMat ℝ, X.cols = ein.dim W g → ∃ Y, F.apply W c act E ps w β X = .ok Y ∧ Y.rows = X.rows ∧ Y.cols = eout.dim W g ∧
      ∀ i < X.rows, E.apply W c act ps w β (X.row i) = .ok (Y.row i)) := by
  have hbN : b ≤ N := by nlinarith [Nat.zero_le b]
  have hE' := hE
  rw [FrontEnd.emlp_eq] at hE'
  obtain ⟨a, o, mids, ha, ho, hm, good⟩ :=
    (Emlp.init_meets hW hd hdN hrng hbN hbf hch gensOf_sized hsol hin hout hbi hbo hN σ (hσ.ok hsol) E σ' hE').2
  by_cases hc : ∀ r ∈ mids, r.CanonicalSum W
  · intro X hX
    have := good.rowwise (fun r hr => ⟨(hm.2.1 r hr).1, hc r hr⟩) F c act hp X (by rw [hX, ha.2.1])
    rw [ho.2.1] at this
    exact this
  · push Not at hc
    obtain ⟨e, he⟩ := good.batch_raises (fun r hr => (hm.2.1 r hr).1) hc F c act hp0.blocks.length_eq.symm X0
    rw [h0] at he
    cases he

/-- On moved inputs the network returns the moved predictions. -/
theorem emlp_moved (hW : W.SingleOK g N) (hd : 2 ≤ W.d g) (hdN : W.d g ≤ N) (ok : GroupsOK W custom lie disc)
    (hsol : SolverOK W (gensOf W (stdAtoms W custom) lie disc) solve) (hσ : NetReach W g (gensOf W (stdAtoms W custom) lie disc) solve σ)
    (hrng : RngOK rng) (hin : RepArg W g N ein rin) (hout : RepArg W g N eout rout) (hch : ch.Widths W g N b L ws)
    (hbi : ein.dim W g ≤ b) (hbo : eout.dim W g ≤ b) (hbf : b < fuel) (hN : (2 * b) * (2 * b) ≤ N) (F : FrontEnd)
    (hE : F.emlp W (gensOf W (stdAtoms W custom) lie disc) solve rng fuel rin rout g ch L σ = .ok (E, σ')) (c : ℝ) (act : ℝ → ℝ)
    {ps0 : List (BlockParams ℝ)} {w0 : DMat ℝ} {β0 : List ℝ} (hp0 : E.Shaped ps0 w0 β0) {X0 P0 : DMat ℝ} (h0 : F.apply W c act E ps0 w0 β0 X0 = .ok P0)
    {ps : List (BlockParams ℝ)} {w : DMat ℝ} {β : List ℝ} (hp : E.Shaped ps w β) {X : DMat ℝ} (hX : X.cols = ein.dim W g)
    {h : ℕ → Matrix (Fin (W.d g)) (Fin (W.d g)) ℝ} (hg : ∀ i, Generated (lie g) (disc g) (h i)) :
    F.apply W c act E ps w β (moveRows (fun i => (ein.den g (Interp.elem W custom g (h i))).1) X) =
      (F.apply W c act E ps w β X).map (moveRows fun i => (eout.den g (Interp.elem W custom g (h i))).1) := by
  have hret := emlp_returns hW hd hdN ok hsol hσ hrng hin hout hch hbi hbo hbf hN F hE c act hp0 h0 hp
  have hI := fun i => elem_dual (g := g) ok (hg i)
  obtain ⟨P, e1, e2, e3, e4⟩ := hret X hX
  obtain ⟨P', k1, k2, k3, k4⟩ := hret (moveRows (fun i => (ein.den g (Interp.elem W custom g (h i))).1) X) hX
  rw [e1, k1]
  show Except.ok P' = Except.ok _
  congr 1
  have hE' := hE
  rw [FrontEnd.emlp_eq] at hE'
  refine eq_moveRows (k2.trans e2.symm) (k3.trans e3.symm) fun i hi => ?_
  rw [e2] at hi
  have a1 := k4 i hi
  rw [moveRows_row _ _ hi ((ein.den_pair (hI i)).1.1.trans hX.symm),
    C40_equivariant hW hd hdN ok hsol hσ hrng hin hout hch hbi hbo hbf hN hE' hp c act (hg i) (by rw [DMat.length_row, hX]) (e4 i hi)] at a1
  exact (Except.ok.inj a1).symm

/-- **C121, networks.** A network built by `EMLP` in any front end, with an output representation that is orthogonal on the group, learns nothing
from where the data stand: move every input and its label by elements of the group, another one for each row of each minibatch of each epoch, and of
the test data.  For every optimizer and way of differentiating, every learning rate schedule, logging times, initial parameters and sequence
of calls of `train` and `train_to`, the parameters, the state of the optimizer and all logged metrics are the same. -/
theorem C121_network (hW : W.SingleOK g N) (hd : 2 ≤ W.d g) (hdN : W.d g ≤ N) (ok : GroupsOK W custom lie disc)
    (hsol : SolverOK W (gensOf W (stdAtoms W custom) lie disc) solve) (hσ : NetReach W g (gensOf W (stdAtoms W custom) lie disc) solve σ)
    (hrng : RngOK rng) (hin : RepArg W g N ein rin) (hout : RepArg W g N eout rout) (hch : ch.Widths W g N b L ws)
    (hbi : ein.dim W g ≤ b) (hbo : eout.dim W g ≤ b) (hbf : b < fuel) (hN : (2 * b) * (2 * b) ≤ N) (F : FrontEnd)
    (hE : F.emlp W (gensOf W (stdAtoms W custom) lie disc) solve rng fuel rin rout g ch L σ = .ok (E, σ')) (c : ℝ) (act : ℝ → ℝ)
    (horth : OrthogonalRep W custom lie disc g eout)
    {ps : Θ → List (BlockParams ℝ)} {w : Θ → DMat ℝ} {β : Θ → List ℝ} (hp : ∀ t, E.Shaped (ps t) (w t) (β t))
    {t0 : Θ} {X0 P0 : DMat ℝ} (h0 : F.apply W c act E (ps t0) (w t0) (β t0) X0 = .ok P0)
    (learner : Learner Θ τ γ) (lrSched : ℝ → ℝ) {S : ℕ} {batches batches' : ℕ → ℕ → DMat ℝ × DMat ℝ}
    (hb : ∀ e i, i < S → MovedBatch W custom lie disc g ein eout (batches e i) (batches' e i))
    {loaders loaders' : List (String × Option ℕ × List (DMat ℝ × DMat ℝ))} (hl : MovedLoaders (MovedBatch W custom lie disc g ein eout) loaders loaders')
    (s : ℕ × RunSt Θ τ) (calls : List (TrainCall × (ℕ → Bool))) :
    (regressor learner lrSched (fun t X => F.apply W c act E (ps t) (w t) (β t) X) S batches' loaders').run s calls =
      (regressor learner lrSched (fun t X => F.apply W c act E (ps t) (w t) (β t) X) S batches loaders).run s calls := by
  refine C121_training (R := MovedBatch W custom lie disc g ein eout) (n := eout.dim W g) learner lrSched ?_ hb hl s calls
  rintro ⟨X, Y⟩ mb' ⟨h1, h2, h3, h, hg, rfl⟩
  have hret := fun t => emlp_returns hW hd hdN ok hsol hσ hrng hin hout hch hbi hbo hbf hN F hE c act (hp t0) h0 (hp t)
  have hI := fun i => elem_dual (g := g) ok (hg i)
  dsimp only at h1 h2 h3
  refine ⟨h2, h3, fun t P hP => ?_, _, _, rfl, fun t => ?_, fun i _ => ⟨(eout.den_pair (hI i)).1, horth _ (hg i)⟩⟩
  · obtain ⟨P', e1, e2, e3, -⟩ := hret t X h1
    dsimp only at hP
    rw [hP] at e1
    cases e1
    exact ⟨e2, e3⟩
  · exact emlp_moved hW hd hdN ok hsol hσ hrng hin hout hch hbi hbo hbf hN F hE c act (hp t0) h0 (hp t) h1 hg

/-- **C121, classifiers.** A network whose outputs are scalars (the logits), trained by `Classifier`: move every input by an element of the group, another
one for each row of each minibatch of each epoch and of the test data, and keep the classes.  Parameters, optimizer and logged metrics are the same. -/
theorem C121_classifier {k : ℕ} (hW : W.SingleOK g N) (hd : 2 ≤ W.d g) (hdN : W.d g ≤ N) (ok : GroupsOK W custom lie disc)
    (hsol : SolverOK W (gensOf W (stdAtoms W custom) lie disc) solve) (hσ : NetReach W g (gensOf W (stdAtoms W custom) lie disc) solve σ)
    (hrng : RngOK rng) (hin : RepArg W g N ein rin) (hout : RepArg W g N (.nsmul k .scalar) rout) (hch : ch.Widths W g N b L ws)
    (hbi : ein.dim W g ≤ b) (hbo : k ≤ b) (hbf : b < fuel) (hN : (2 * b) * (2 * b) ≤ N) (F : FrontEnd)
    (hE : F.emlp W (gensOf W (stdAtoms W custom) lie disc) solve rng fuel rin rout g ch L σ = .ok (E, σ')) (c : ℝ) (act : ℝ → ℝ)
    {ps : Θ → List (BlockParams ℝ)} {w : Θ → DMat ℝ} {β : Θ → List ℝ} (hp : ∀ t, E.Shaped (ps t) (w t) (β t))
    {t0 : Θ} {X0 P0 : DMat ℝ} (h0 : F.apply W c act E (ps t0) (w t0) (β t0) X0 = .ok P0)
    (learner : Learner Θ τ γ) (lrSched : ℝ → ℝ) (oob : List ℝ → ℤ → Fl) {S : ℕ} {batches batches' : ℕ → ℕ → DMat ℝ × List ℤ}
    (hb : ∀ e i, i < S → MovedInputs W custom lie disc g ein (batches e i) (batches' e i))
    {loaders loaders' : List (String × Option ℕ × List (DMat ℝ × List ℤ))} (hl : MovedLoaders (MovedInputs W custom lie disc g ein) loaders loaders')
    (s : ℕ × RunSt Θ τ) (calls : List (TrainCall × (ℕ → Bool))) :
    (classifier learner lrSched oob (fun t X => F.apply W c act E (ps t) (w t) (β t) X) S batches' loaders').run s calls =
      (classifier learner lrSched oob (fun t X => F.apply W c act E (ps t) (w t) (β t) X) S batches loaders).run s calls := by
  have hbo' : (Expr.nsmul k .scalar).dim W g ≤ b := by simpa [Expr.dim] using hbo
  have key : ∀ mb mb' : DMat ℝ × List ℤ, MovedInputs W custom lie disc g ein mb mb' → mb'.2 = mb.2 ∧
      ∀ t, F.apply W c act E (ps t) (w t) (β t) mb'.1 = F.apply W c act E (ps t) (w t) (β t) mb.1 := by
    rintro ⟨X, y⟩ mb' ⟨h1, h, hg, rfl⟩
    refine ⟨rfl, fun t => ?_⟩
    obtain ⟨P, e1, e2, e3, -⟩ := emlp_returns hW hd hdN ok hsol hσ hrng hin hout hch hbi hbo' hbf hN F hE c act (hp t0) h0 (hp t) X h1
    have := emlp_moved hW hd hdN ok hsol hσ hrng hin hout hch hbi hbo' hbf hN F hE c act (hp t0) h0 (hp t) (X := X) h1 hg
    dsimp only
    rw [this, e1]
    show Except.ok (moveRows _ P) = _
    rw [moveRows_one fun i _ => by rw [e3]; simp only [Expr.den, Expr.dim, bdiag_ones, Nat.mul_one]]
  refine TrainerObj.Agree.run (T := classifier learner lrSched oob (fun t X => F.apply W c act E (ps t) (w t) (β t) X) S batches loaders)
    (T' := classifier learner lrSched oob (fun t X => F.apply W c act E (ps t) (w t) (β t) X) S batches' loaders')
    ⟨rfl, rfl, rfl, fun e i hi t => ?_, fun t => ?_, fun _ _ => rfl⟩ calls s
  · obtain ⟨k1, k2⟩ := key _ _ (hb e i hi)
    unfold classifier
    dsimp only
    rw [k1, k2]
  · refine allMetrics_congr t (by unfold classifier; exact .cons rfl .nil) ?_ ?_
    · refine hl.imp fun a a' h => ⟨h.1, h.2.1, fun m m' hm => ?_⟩
      unfold classifier at hm
      rw [zip_cons_cons, zip_nil_left, mem_singleton] at hm
      obtain ⟨rfl, rfl⟩ := Prod.mk.inj hm
      refine h.2.2.imp fun b b' hbb => ?_
      obtain ⟨k1, k2⟩ := key b b' hbb
      dsimp only
      rw [k1, k2]
    · exact hl.imp fun a a' h => h.2.2.length_eq.symm

/-- **C121, which representations.** All representations of a group flagged orthogonal are orthogonal, and for any group those of scalars are. -/
theorem C121_orthogonal (ok : GroupsOK W custom lie disc) : (W.orth g = true → ∀ e, OrthogonalRep W custom lie disc g e) ∧
    OrthogonalRep W custom lie disc g .scalar ∧ ∀ n, OrthogonalRep W custom lie disc g (.nsmul n .scalar) := by
  refine ⟨fun ho e h hg => ?_, fun h hg => ?_, fun n h hg => ?_⟩
  · have hI := elem_dual (g := g) ok hg
    obtain ⟨-, -, this⟩ := e.den_pair (g := g) hI
    rwa [← Expr.den_orth hI ho e] at this
  · simp only [Expr.den, Expr.dim, DMat.transpose_one]
    exact DMat.one_mul' (n := 1) _ rfl
  · simp only [Expr.den, Expr.dim, bdiag_ones, Nat.mul_one, DMat.transpose_one]
    exact DMat.one_mul' (n := n) _ rfl

/-- **C121, labels computed from the inputs.** If the labels are an equivariant function of the inputs, then moving the inputs and computing
the labels again is such a move: training on the moved inputs with their own labels gives the same network. -/
theorem C121_relabelled (ok : GroupsOK W custom lie disc) {label : List ℝ → List ℝ} (hlen : ∀ x, (label x).length = eout.dim W g)
    (hlab : ∀ h, Generated (lie g) (disc g) h → ∀ x : List ℝ, x.length = ein.dim W g →
      label ((ein.den g (Interp.elem W custom g h)).1.mulVec x) = (eout.den g (Interp.elem W custom g h)).1.mulVec (label x))
    {X : DMat ℝ} (hX : X.cols = ein.dim W g) {h : ℕ → Matrix (Fin (W.d g)) (Fin (W.d g)) ℝ} (hg : ∀ i, Generated (lie g) (disc g) (h i)) :
    MovedBatch W custom lie disc g ein eout (X, labelRows (eout.dim W g) label X)
      (moveRows (fun i => (ein.den g (Interp.elem W custom g (h i))).1) X,
        labelRows (eout.dim W g) label (moveRows (fun i => (ein.den g (Interp.elem W custom g (h i))).1) X)) := by
  refine ⟨hX, rfl, rfl, h, hg, Prod.ext rfl ?_⟩
  have hI := fun i => elem_dual (g := g) ok (hg i)
  dsimp only
  refine eq_moveRows rfl rfl fun i hi => ?_
  have hi : i < X.rows := hi
  have row : ∀ Z : DMat ℝ, i < Z.rows → (labelRows (eout.dim W g) label Z).row i = label (Z.row i) := by
    intro Z hZ
    refine ext_getElem (by simp [labelRows, DMat.of, hlen]) fun j h1 h2 => ?_
    have e1 := (getD_eq_getElem ((labelRows (eout.dim W g) label Z).row i) 0 h1).symm
    rw [e1, DMat.getD_row, labelRows, DMat.of_e hZ (by rw [← hlen]; exact h2), getD_eq_getElem _ _ h2]
  rw [row X hi, row (moveRows _ X) hi, moveRows_row _ _ hi ((ein.den_pair (hI i)).1.1.trans hX.symm), hlab _ (hg i) _ (by rw [DMat.length_row, hX])]

/-- **C121, the datasets of the library.** Inputs moved by the declared symmetry group, labels computed from the moved inputs: for `Inertia` with
`O(3)`, `O5Synthetic` with `SO(5)` and `ParticleInteraction` with the Lorentz group `O13` (not orthogonal, but the label is a scalar). -/
theorem C121_datasets (ok : GroupsOK W custom lie disc) {X : DMat ℝ} {h : ℕ → Matrix (Fin (W.d g)) (Fin (W.d g)) ℝ} (hg : ∀ i, Generated (lie g) (disc g) (h i)) :
    (∀ (k : ℕ) (a b : Arr3 ℝ), soLie 3 = .ok a → oDisc 3 = .ok b → W.d g = 3 → lie g = a.mats (W.d g) → disc g = b.mats (W.d g) → X.cols = k + k * 3 →
      MovedBatch W custom lie disc g (inertiaIn k) inertiaOut (X, labelRows 9 (inertiaRow k) X)
        (moveRows (fun i => ((inertiaIn k).den g (Interp.elem W custom g (h i))).1) X,
          labelRows 9 (inertiaRow k) (moveRows (fun i => ((inertiaIn k).den g (Interp.elem W custom g (h i))).1) X))) ∧
    (∀ (a : Arr3 ℝ), soLie 5 = .ok a → W.d g = 5 → lie g = a.mats (W.d g) → disc g = [] → X.cols = 2 * 5 →
      MovedBatch W custom lie disc g (.nsmul 2 (.rep 0)) .scalar (X, labelRows 1 (fun x => [o5Label fun n => x.getD n 0]) X)
        (moveRows (fun i => ((Expr.nsmul 2 (.rep 0)).den g (Interp.elem W custom g (h i))).1) X,
          labelRows 1 (fun x => [o5Label fun n => x.getD n 0]) (moveRows (fun i => ((Expr.nsmul 2 (.rep 0)).den g (Interp.elem W custom g (h i))).1) X))) ∧
    (∀ (a b : Arr3 ℝ), so13pLie = .ok a → o13Disc = .ok b → W.d g = 4 → lie g = a.mats (W.d g) → disc g = b.mats (W.d g) → X.cols = 4 * 4 →
      MovedBatch W custom lie disc g (.nsmul 4 (.rep 0)) .scalar (X, labelRows 1 (fun x => [particleLabel fun n => x.getD n 0]) X)
        (moveRows (fun i => ((Expr.nsmul 4 (.rep 0)).den g (Interp.elem W custom g (h i))).1) X,
          labelRows 1 (fun x => [particleLabel fun n => x.getD n 0]) (moveRows (fun i => ((Expr.nsmul 4 (.rep 0)).den g (Interp.elem W custom g (h i))).1) X))) := by
  have hvec : ∀ m : Matrix (Fin (W.d g)) (Fin (W.d g)) ℝ, ((Interp.elem W custom g m).vec 0 (some g)).sem = DMat.ofMatrix m := by
    intro m
    show DMat.ofMatrix (oneAt W g m g) = _
    rw [oneAt_same]
  have hd0 : W.asize 0 g = W.d g := rfl
  refine ⟨fun k a b ha hb h3 hl hdg hX => ?_, fun a ha h5 hl hdg hX => ?_, fun a b ha hb h4 hl hdg hX => ?_⟩
  · obtain ⟨a', b', ha', hb', hsym⟩ := C80_symmetry k
    rw [ha] at ha'
    rw [hb] at hb'
    cases ha'
    cases hb'
    have key : ∀ n, n = 3 → ∀ m : Matrix (Fin n) (Fin n) ℝ, Generated (a.mats n) (b.mats n) m → ∀ (I : Interp ℝ),
        (I.vec 0 (some g)).sem = DMat.ofMatrix m → ∀ x : List ℝ, x.length = k + k * 3 →
        inertiaRow k (((inertiaIn k).den g I).1.mulVec x) = (inertiaOut.den g I).1.mulVec (inertiaRow k x) := by
      rintro n rfl m hm I hI x hx
      exact hsym m hm g I hI x hx
    have d1 : (inertiaIn k).dim W g = k + k * 3 := by simp [inertiaIn, Expr.dim, hd0, h3]
    have d2 : inertiaOut.dim W g = 9 := by simp [inertiaOut, Expr.dim, hd0, h3]
    have := C121_relabelled (ein := inertiaIn k) (eout := inertiaOut) ok (label := inertiaRow k) (fun x => by simp [inertiaRow, d2])
      (fun m hm x hx => key _ h3 m (by rw [← hl, ← hdg]; exact hm) _ (hvec m) x (hx.trans d1)) (hX.trans d1.symm) hg
    rwa [d2] at this
  · obtain ⟨a', ha', hsym⟩ := C81_symmetry
    rw [ha] at ha'
    cases ha'
    have key : ∀ n, n = 5 → ∀ m : Matrix (Fin n) (Fin n) ℝ, Generated (a.mats n) [] m → ∀ (I : Interp ℝ),
        (I.vec 0 (some g)).sem = DMat.ofMatrix m → ∀ x : List ℝ, x.length = 2 * 5 →
        [o5Label fun n => (((Expr.nsmul 2 (.rep 0)).den g I).1.mulVec x).getD n 0] = (Expr.scalar.den g I).1.mulVec [o5Label fun n => x.getD n 0] := by
      rintro n rfl m hm I hI x hx
      exact hsym m hm g I hI x hx
    have d1 : (Expr.nsmul 2 (.rep 0)).dim W g = 2 * 5 := by simp [Expr.dim, hd0, h5]
    exact C121_relabelled (ein := .nsmul 2 (.rep 0)) (eout := .scalar) ok (label := fun x => [o5Label fun n => x.getD n 0]) (fun x => rfl)
      (fun m hm x hx => key _ h5 m (by rw [← hl, ← hdg]; exact hm) _ (hvec m) x (hx.trans d1)) (hX.trans d1.symm) hg
  · obtain ⟨a', b', ha', hb', hsym⟩ := C82_symmetry
    rw [ha] at ha'
    rw [hb] at hb'
    cases ha'
    cases hb'
    have key : ∀ n, n = 4 → ∀ m : Matrix (Fin n) (Fin n) ℝ, Generated (a.mats n) (b.mats n) m → ∀ (I : Interp ℝ),
        (I.vec 0 (some g)).sem = DMat.ofMatrix m → ∀ x : List ℝ, x.length = 4 * 4 →
        [particleLabel fun n => (((Expr.nsmul 4 (.rep 0)).den g I).1.mulVec x).getD n 0] = (Expr.scalar.den g I).1.mulVec [particleLabel fun n => x.getD n 0] := by
      rintro n rfl m hm I hI x hx
      exact hsym m hm g I hI x hx
    have d1 : (Expr.nsmul 4 (.rep 0)).dim W g = 4 * 4 := by simp [Expr.dim, hd0, h4]
    exact C121_relabelled (ein := .nsmul 4 (.rep 0)) (eout := .scalar) ok (label := fun x => [particleLabel fun n => x.getD n 0]) (fun x => rfl)
      (fun m hm x hx => key _ h4 m (by rw [← hl, ← hdg]; exact hm) _ (hvec m) x (hx.trans d1)) (hX.trans d1.symm) hg

/-- **C121, augmentation.** Wrapping a network built by `EMLP` in `GroupAugmentation` changes nothing about training: whatever group elements
are drawn in each step, parameters, optimizer and logged metrics are those of training without the wrapper.  As in C39, for representations
`Scalar`, `V`, `V*` or user-defined ones; with others the wrapper raises. -/
theorem C121_augment_partial {a o : Rep} {mids : List Rep} (hW : W.SingleOK g N) (ok : GroupsOK W custom lie disc)
    (hsol : SolverOK W (gensOf W (stdAtoms W custom) lie disc) solve) (hσ : NetReach W g (gensOf W (stdAtoms W custom) lie disc) solve σ)
    (hrng : RngOK rng) (hov : ∀ r ∈ a :: o :: mids, r.Over W g N ∧ r.size W + r.gates W ≤ b) (hN : b * b ≤ N)
    (hE : Emlp.build W (gensOf W (stdAtoms W custom) lie disc) solve rng a mids o σ = .ok (E, σ'))
    (ha : a.Simple) (ho : o.Simple) (hc : ∀ r ∈ mids, r.CanonicalSum W) (c : ℝ) (act : ℝ → ℝ)
    {ps : Θ → List (BlockParams ℝ)} {w : Θ → DMat ℝ} {β : Θ → List ℝ} (hp : ∀ t, E.Shaped (ps t) (w t) (β t))
    (learner : Learner Θ τ γ) (lrSched : ℝ → ℝ) {S : ℕ} {batches : ℕ → ℕ → List (Interp ℝ) × List (List ℝ) × DMat ℝ}
    (hb : ∀ e i, i < S → ∃ hs : List (Matrix (Fin (W.d g)) (Fin (W.d g)) ℝ), (∀ h ∈ hs, Generated (lie g) (disc g) h) ∧
      (batches e i).1 = hs.map (Interp.elem W custom g) ∧ (batches e i).2.1.length = hs.length ∧ ∀ x ∈ (batches e i).2.1, x.length = a.size W)
    (loaders : List (String × Option ℕ × List (List (Interp ℝ) × List (List ℝ) × DMat ℝ))) (n : ℕ) (s : ℕ × RunSt Θ τ) (calls : List (TrainCall × (ℕ → Bool))) :
    (TrainerObj.mk learner lrSched (augmentedLoss n (fun t _ X => X.mapM (E.apply W c act (ps t) (w t) (β t))) a o true)
      [("MSE", augmentedLoss n (fun t _ X => X.mapM (E.apply W c act (ps t) (w t) (β t))) a o false)] S batches loaders fun _ _ => .ok []).run s calls =
    (TrainerObj.mk learner lrSched (plainLoss n (fun t _ X => X.mapM (E.apply W c act (ps t) (w t) (β t))) true)
      [("MSE", plainLoss n (fun t _ X => X.mapM (E.apply W c act (ps t) (w t) (β t))) false)] S batches loaders fun _ _ => .ok []).run s calls := by
  have hag : TrainerObj.Agree (TrainerObj.mk learner lrSched (plainLoss n (fun t _ X => X.mapM (E.apply W c act (ps t) (w t) (β t))) true)
      [("MSE", plainLoss n (fun t _ X => X.mapM (E.apply W c act (ps t) (w t) (β t))) false)] S batches loaders fun _ _ => .ok [])
      (TrainerObj.mk learner lrSched (augmentedLoss n (fun t _ X => X.mapM (E.apply W c act (ps t) (w t) (β t))) a o true)
      [("MSE", augmentedLoss n (fun t _ X => X.mapM (E.apply W c act (ps t) (w t) (β t))) a o false)] S batches loaders fun _ _ => .ok []) := by
    refine ⟨rfl, rfl, rfl, fun e i hi t => ?_, fun t => allMetrics_congr t (by exact .cons rfl .nil) ?_ (forall₂_same.2 fun _ _ => rfl), fun _ _ => rfl⟩
    swap
    · refine forall₂_same.2 fun x _ => ⟨rfl, rfl, fun m m' hm => ?_⟩
      rw [zip_cons_cons, zip_nil_left, mem_singleton] at hm
      obtain ⟨rfl, rfl⟩ := Prod.mk.inj hm
      exact forall₂_same.2 fun _ _ => rfl
    obtain ⟨hs, h1, h2, h3, h4⟩ := hb e i hi
    dsimp only
    unfold augmentedLoss plainLoss
    rw [h2, C39_emlp_partial hW ok hsol hσ hrng hov hN hE ha ho hc (hp t) c act h1 h3 h4]
  exact hag.run calls s

end

/-! A case of `C121_network`: the network `3 → 12 → 7 → 1` of C40's example in each front end, with all its parameters equal to the one number that is
trained, and a minibatch of two points moved by the identity and by the rotation by 1. -/

example (F : FrontEnd) : ∃ (solve : ℕ → LinOp ℝ → Py (DMat ℝ)) (rng : Rng) (E : Emlp ℝ) (σ' : NetSt ℝ)
    (ps : ℝ → List (BlockParams ℝ)) (w : ℝ → DMat ℝ) (β : ℝ → List ℝ) (mb' : DMat ℝ × DMat ℝ),
    SolverOK exW (gensOf exW (stdAtoms exW fun k g => trivialAtom _ _) rotLies fun _ => []) solve ∧ RngOK rng ∧
    F.emlp exW (gensOf exW (stdAtoms exW fun k g => trivialAtom _ _) rotLies fun _ => []) solve rng 13 Rep.V (.key .scalar) 0
      (.list [.int 12, .int 7]) 0 ⟨freshSt, none, 0⟩ = .ok (E, σ') ∧
    (∀ t, E.Shaped (ps t) (w t) (β t)) ∧ (∃ P0, F.apply exW 0.1 Real.sigmoid E (ps 0) (w 0) (β 0) (DMat.of 2 3 fun _ _ => 1) = .ok P0) ∧
    OrthogonalRep exW (fun k g => trivialAtom _ _) rotLies (fun _ => []) 0 .scalar ∧
    MovedBatch exW (fun k g => trivialAtom _ _) rotLies (fun _ => []) 0 (.rep 0) .scalar (DMat.of 2 3 fun _ _ => 1, DMat.of 2 1 fun i _ => i) mb' := by
  obtain ⟨s, h1, h2⟩ := exists_solver ℝ
  obtain ⟨rng, hr⟩ := exists_rng
  have ha : RepArg exW 0 576 (.rep 0) Rep.V := ⟨⟨by decide, Or.inl rfl⟩, by decide, Or.inl rfl⟩
  have ho : RepArg exW 0 576 .scalar (.key .scalar) := ⟨trivial, by decide, Or.inl rfl⟩
  have hc : Ch.Widths exW 0 576 12 0 (.list [.int 12, .int 7]) [12, 7] :=
    .list _ _ (.cons (.int 12 (by decide) (by decide)) (.cons (.int 7 (by decide) (by decide)) .nil))
  have hσ : NetReach exW 0 (gensOf exW (stdAtoms exW fun k g => trivialAtom _ _) rotLies fun _ => []) (fun _ => s) ⟨freshSt, none, 0⟩ :=
    .start none 0 fun h e => by simp at e
  obtain ⟨E, σ', hE, hret⟩ := C40_total (L := 0) (fuel := 13) (exW_single 0 576 (by decide)) (by decide) (by decide) rot_groups (h1 _ _) (fun _ _ C _ => h2 C) hσ hr ha ho hc
    (.list _ fun c hc => by
      simp only [mem_cons, not_mem_nil, or_false] at hc
      rcases hc with rfl | rfl
      · exact ⟨12, by decide, rfl⟩
      · exact ⟨7, by decide, rfl⟩) (by decide) (by decide) (by decide) (by decide)
  have hE' : F.emlp exW (gensOf exW (stdAtoms exW fun k g => trivialAtom _ _) rotLies fun _ => []) (fun _ => s) rng 13 Rep.V (.key .scalar) 0
      (.list [.int 12, .int 7]) 0 ⟨freshSt, none, 0⟩ = .ok (E, σ') := by rw [FrontEnd.emlp_eq]; exact hE
  have hp : ∀ t : ℝ, E.Shaped (E.blocks.map fun B => ⟨DMat.of B.lin.nout B.lin.nin fun _ _ => t, replicate B.lin.nout t, replicate B.bil.dims t⟩)
      (DMat.of E.last.nout E.last.nin fun _ _ => t) (replicate E.last.nout t) := fun t =>
    ⟨forall₂_map_right_iff.2 (forall₂_same.2 fun B _ => ⟨rfl, rfl, length_replicate, length_replicate⟩), rfl, rfl, length_replicate⟩
  have hg : Generated (rotLies 0) [] (NormedSpace.exp (rotLie (exW.d 0))) := by
    exact .exp (Submodule.subset_span (by simp [rotLies]))
  refine ⟨_, rng, E, σ', _, _, _, _, h1 _ _, hr, hE', hp, ?_, (C121_orthogonal rot_groups).2.1, rfl, rfl, rfl,
    fun i => if i = 0 then 1 else NormedSpace.exp (rotLie (exW.d 0)), fun i => ?_, rfl⟩
  · rcases C42_function (exW_single 0 576 (by decide)) (by decide) (by decide) rot_groups (h1 _ _) hσ hr ha ho hc (by decide) (by decide) (by decide)
      (by decide) F hE' (hp 0) 0.1 Real.sigmoid with h | ⟨-, h⟩
    · obtain ⟨Y, hY, -⟩ := h (DMat.of 2 3 fun _ _ => 1) rfl
      exact ⟨Y, hY⟩
    · obtain ⟨y, hy⟩ := hret _ _ _ (hp 0) 0.1 Real.sigmoid [0, 0, 0] rfl
      obtain ⟨e, he⟩ := h [0, 0, 0]
      rw [hy] at he
      cases he
  · dsimp only
    split_ifs
    · exact .one
    · exact hg

/-! ### Orthogonality cannot be dropped -/

/-- Gradient descent on one parameter, with exact derivatives. -/
noncomputable def gradientDescent : Learner ℝ Unit ℝ where
  gradvals L t := do
    let v ← L t
    pure (deriv (fun t => match L t with | .ok (some v) => v | _ => 0) t, v)
  update lr grad s := (s.1, s.2 - lr * grad)

/-- The linear maps `x ↦ t x` of the line: the equivariant maps `V → V` for the group `Scaling(1)` of all positive factors. -/
def scaleModel (t : ℝ) (X : DMat ℝ) : Py (DMat ℝ) := .ok (DMat.of X.rows X.cols fun i j => t * X.e i j)

/-- **C121, counterexample.** For an output representation that is not orthogonal training does see where the data stand: scale input and label by `2`.
The model is equivariant, for all parameters, but after one epoch of gradient descent the parameters differ. -/
theorem C121_counterexample_scaling : ∃ (batches batches' : ℕ → ℕ → DMat ℝ × DMat ℝ) (t : ℝ),
    (∀ e i, batches' e i = (moveRows (fun _ => DMat.of 1 1 fun _ _ => 2) (batches e i).1, moveRows (fun _ => DMat.of 1 1 fun _ _ => 2) (batches e i).2)) ∧
    (∀ e i t, scaleModel t (moveRows (fun _ => DMat.of 1 1 fun _ _ => 2) (batches e i).1) =
      (scaleModel t (batches e i).1).map (moveRows fun _ => DMat.of 1 1 fun _ _ => 2)) ∧
    ((regressor gradientDescent (fun _ => 1) scaleModel 1 batches' []).run (0, ⟨(), t, []⟩) [(.train 1, fun _ => false)]).map (fun s => s.2.params) ≠
      ((regressor gradientDescent (fun _ => 1) scaleModel 1 batches []).run (0, ⟨(), t, []⟩) [(.train 1, fun _ => false)]).map (fun s => s.2.params) := by
  have hm : ∀ a : ℝ, moveRows (fun _ => DMat.of 1 1 fun _ _ => 2) (DMat.of 1 1 fun _ _ => a) = DMat.of 1 1 fun _ _ => 2 * a := by
    intro a
    refine DMat.ext rfl rfl fun i j hi hj => ?_
    have hi : i < 1 := hi
    have hj : j < 1 := hj
    rw [moveRows, DMat.of_e (by exact hi) (by exact hj), DMat.of_e hi hj, DMat.getD_mulVec hj]
    show ∑ k ∈ Finset.range 1, _ = _
    rw [Finset.sum_range_one, DMat.getD_row, DMat.of_e hj Nat.one_pos, DMat.of_e hi Nat.one_pos]
  have hs : ∀ t a : ℝ, scaleModel t (DMat.of 1 1 fun _ _ => a) = .ok (DMat.of 1 1 fun _ _ => t * a) := by
    intro t a
    unfold scaleModel
    congr 1
    refine DMat.ext rfl rfl fun i j hi hj => ?_
    have hi : i < 1 := hi
    have hj : j < 1 := hj
    rw [DMat.of_e (by exact hi) (by exact hj), DMat.of_e hi hj, DMat.of_e hi hj]
  have hloss : ∀ a t : ℝ, regressorLoss scaleModel t (DMat.of 1 1 fun _ _ => a, DMat.of 1 1 fun _ _ => 0) = .ok (some (t ^ 2 * a ^ 2)) := by
    intro a t
    unfold regressorLoss
    dsimp only
    rw [hs]
    show mse (DMat.of 1 1 fun _ _ => t * a) (.d2 (DMat.of 1 1 fun _ _ => 0)) = _
    rw [mse_same (r := 1) (n := 1) rfl rfl rfl rfl, Finset.sum_range_one, Finset.sum_range_one, DMat.of_e Nat.one_pos Nat.one_pos,
      DMat.of_e Nat.one_pos Nat.one_pos, fdiv, if_neg (by norm_num)]
    congr 2
    norm_num
    ring
  have hrun : ∀ a : ℝ, ((regressor gradientDescent (fun _ => 1) scaleModel 1 (fun _ _ => (DMat.of 1 1 fun _ _ => a, DMat.of 1 1 fun _ _ => 0)) []).run
      (0, ⟨(), 1, []⟩) [(.train 1, fun _ => false)]).map (fun s => s.2.params) = .ok (1 - 2 * a ^ 2) := by
    intro a
    have hd : deriv (fun t : ℝ => match (Except.ok (some (t ^ 2 * a ^ 2)) : Py Fl) with | .ok (some v) => v | _ => 0) 1 = 2 * a ^ 2 := by
      show deriv (fun t : ℝ => t ^ 2 * a ^ 2) 1 = _
      simp
    have hstep : ∀ e : ℝ, TrainerObj.step (regressor gradientDescent (fun _ => 1) scaleModel 1 (fun _ _ => (DMat.of 1 1 fun _ _ => a, DMat.of 1 1 fun _ _ => 0)) [])
        e (DMat.of 1 1 fun _ _ => a, DMat.of 1 1 fun _ _ => 0) ⟨(), 1, []⟩ = .ok ⟨(), 1 - 2 * a ^ 2, []⟩ := by
      intro e
      simp only [TrainerObj.step, regressor, gradientDescent, hloss]
      show Except.ok _ = _
      rw [hd, one_mul]
    have ht : (train (fun _ => false) 1 1 ⟨0, []⟩) = ⟨1, [.step 0 0 0, .log 0]⟩ := by decide
    simp only [TrainerObj.run, TrainerObj.call]
    rw [show (regressor gradientDescent (fun _ => 1) scaleModel 1 (fun _ _ => (DMat.of 1 1 fun _ _ => a, DMat.of 1 1 fun _ _ => 0)) []).trainLen = 1 from rfl, ht]
    have hf : [Ev.step 0 0 0, Ev.log 0].foldlM (regressor gradientDescent (fun _ => 1) scaleModel 1 (fun _ _ => (DMat.of 1 1 fun _ _ => a, DMat.of 1 1 fun _ _ => 0)) []).exec
        ⟨(), 1, []⟩ = .ok ⟨(), 1 - 2 * a ^ 2, [(0, [])]⟩ := by
      rw [foldlM_cons]
      simp only [TrainerObj.exec]
      rw [show (regressor gradientDescent (fun _ => 1) scaleModel 1 (fun _ _ => (DMat.of 1 1 fun _ _ => a, DMat.of 1 1 fun _ _ => 0)) []).batches 0 0 = (DMat.of 1 1 fun _ _ => a, DMat.of 1 1 fun _ _ => 0) from rfl,
        hstep]
      rfl
    simp only [bind, Except.bind, pure, Except.pure] at hf ⊢
    rw [hf]
    rfl
  refine ⟨fun _ _ => (DMat.of 1 1 fun _ _ => 1, DMat.of 1 1 fun _ _ => 0), fun _ _ => (DMat.of 1 1 fun _ _ => 2, DMat.of 1 1 fun _ _ => 0), 1, fun e i => ?_, fun e i t => ?_, ?_⟩
  · dsimp only
    rw [hm, hm]
    norm_num
  · dsimp only
    rw [hm, hs, hs]
    show _ = Except.ok (moveRows _ _)
    rw [hm]
    congr 3
    funext _ _
    ring
  · rw [hrun, hrun]
    norm_num

end Verif
