import Verif.Lemmas.TrainingFlows
import Verif.Props.Training
import Verif.Props.SmoothDynamics

/-!
# C122: training on trajectories does not see the symmetry
-/
namespace Verif
open List

section
variable {Θ σ γ : Type}

/-- **C122, any dynamics.** Let the rollouts of the learned field move with the initial states, for all values of the parameters, by orthogonal
matrices, and those of the true field at the times of the long rollout.  Then for every optimizer, learning rate schedule, logging times and sequence of
calls, training and testing on moved trajectories gives the same parameters, optimizer state, epoch and logged metrics (the losses and `test_Rollout`), or
raises the same. -/
theorem C122_training (learner : Learner Θ σ γ) (lrSched : ℝ → ℝ) {odeint : Odeint} {field : Θ → List ℝ → ℝ → Py (List ℝ)} {truth : List ℝ → ℝ → Py (List ℝ)}
    {n : ℕ} {G : DMat ℝ → Prop} {long : List ℝ} (hG : ∀ M, G M → M.IsSq n ∧ M.transpose.mul M = DMat.one n)
    (hf : ∀ t ts, Forward ts → FlowMoves odeint (field t) n G ts) (hlong : Forward long) (ht : FlowMoves odeint truth n G long) {S : ℕ}
    {batches batches' : ℕ → ℕ → TrajBatch} (hb : ∀ e i, i < S → MovedTrajs G n (batches e i) (batches' e i))
    {loaders loaders' : List (String × Option ℕ × List TrajBatch)} (hl : MovedLoaders (MovedTrajs G n) loaders loaders')
    (s : ℕ × RunSt Θ σ) (calls : List (TrainCall × (ℕ → Bool))) :
    (dynamicsTrainer learner lrSched odeint field truth n long S batches' loaders').run s calls =
      (dynamicsTrainer learner lrSched odeint field truth n long S batches loaders).run s calls := by
  refine TrainerObj.Agree.run (T := dynamicsTrainer learner lrSched odeint field truth n long S batches loaders)
    (T' := dynamicsTrainer learner lrSched odeint field truth n long S batches' loaders')
    ⟨rfl, rfl, rfl, fun e i hi t => trajectoryLoss_moved hG hf (hb e i hi) t, fun t => ?_, fun _ t => ?_⟩ calls s
  · refine allMetrics_congr t (by unfold dynamicsTrainer; exact .cons rfl .nil) ?_ ?_
    · refine hl.imp fun a a' h => ⟨h.1, h.2.1, fun m m' hm => ?_⟩
      unfold dynamicsTrainer at hm
      rw [zip_cons_cons, zip_nil_left, mem_singleton] at hm
      obtain ⟨rfl, rfl⟩ := Prod.mk.inj hm
      exact h.2.2.imp fun b b' hbb => trajectoryLoss_moved hG hf hbb t
    · exact hl.imp fun a a' h => h.2.2.length_eq.symm
  · unfold dynamicsTrainer
    dsimp only
    have key : (loaders.find? (fun x => x.1 = "test") = none ∧ loaders'.find? (fun x => x.1 = "test") = none) ∨
        ∃ x x', loaders.find? (fun x => x.1 = "test") = some x ∧ loaders'.find? (fun x => x.1 = "test") = some x' ∧
          x'.2.1 = x.2.1 ∧ Forall₂ (MovedTrajs G n) x.2.2 x'.2.2 := by
      unfold MovedLoaders at hl
      clear hb
      induction hl with
      | nil => exact .inl ⟨rfl, rfl⟩
      | @cons a a' _ _ h _ ih =>
        by_cases ha : a.1 = "test"
        · exact .inr ⟨a, a', by simp [ha], by simp [h.1, ha], h.2.1, h.2.2⟩
        · rw [find?_cons_of_neg (by simpa using ha), find?_cons_of_neg (by simpa [h.1] using ha)]
          exact ih
    rcases key with ⟨k1, k2⟩ | ⟨x, x', k1, k2, k3, k4⟩
    · rw [k1, k2]
    · rw [k1, k2]
      dsimp only
      rw [k3, averageMetric_congr (k4.imp fun b b' hbb => rolloutMetric_moved hG (fun t => hf t _ hlong) ht hbb t)]

end

section
variable {W : World} {g : Gid} {N : ℕ} {custom : ∀ k g, AtomRep ℝ (W.d g) (W.usize k g)}
  {lie disc : ∀ g, List (Matrix (Fin (W.d g)) (Fin (W.d g)) ℝ)} {solve : ℕ → LinOp ℝ → Py (DMat ℝ)} {rng : Rng} {σ σ' : NetSt ℝ}
  {ein : Expr} {rin rout : Rep} {fuel b L : ℕ} {ch : Ch} {ws : List ℕ} {E : Emlp ℝ} {Θ τ γ : Type}

theorem isGrad_congr {n : ℕ} {H H' : List ℝ → ℝ} {grad : List ℝ → List ℝ} (e : ∀ x : List ℝ, x.length = n → H' x = H x) (h : IsGrad n H grad) : IsGrad n H' grad := by
  intro x hx
  obtain ⟨h1, L, h2, h3⟩ := h x hx
  exact ⟨h1, L, by rwa [show (fun v : Fin n → ℝ => H' (List.ofFn v)) = fun v => H (List.ofFn v) from funext fun v => e _ (by simp)], h3⟩

/-- **C122, `EMLPode`.** A neural ODE built by `EMLPode` on a representation that is orthogonal on the group, trained by `IntegratedODETrainer`: move
every trajectory by an element of the group, another one for each row of each minibatch of each epoch and of the test data.  For every optimizer,
schedule and sequence of calls the parameters, the state of the optimizer and all that is logged are the same. -/
theorem C122_emlpode (hW : W.SingleOK g N) (hd : 2 ≤ W.d g) (hdN : W.d g ≤ N) (ok : GroupsOK W custom lie disc)
    (hsol : SolverOK W (gensOf W (stdAtoms W custom) lie disc) solve) (hσ : NetReach W g (gensOf W (stdAtoms W custom) lie disc) solve σ)
    (hrng : RngOK rng) (hin : RepArg W g N ein rin) (hch : ch.Widths W g N b L ws)
    (hbi : ein.dim W g ≤ b) (hbf : b < fuel) (hN : (2 * b) * (2 * b) ≤ N)
    (hE : Emlp.init W (gensOf W (stdAtoms W custom) lie disc) solve rng fuel rin rin g ch L σ = .ok (E, σ'))
    (horth : OrthogonalRep W custom lie disc g ein) (c : ℝ) {act : ℝ → ℝ} (hact : ContDiff ℝ 1 act)
    {ps : Θ → List (BlockParams ℝ)} {w : Θ → DMat ℝ} {β : Θ → List ℝ} (hp : ∀ t, E.Shaped (ps t) (w t) (β t))
    (h0 : ∀ t, ∃ x0 y0, x0.length = ein.dim W g ∧ E.apply W c act (ps t) (w t) (β t) x0 = .ok y0)
    {odeint : Odeint} (hode : odeint.Natural) {truth : List ℝ → ℝ → Py (List ℝ)} {long : List ℝ} (hlong : Forward long)
    {G : DMat ℝ → Prop} (hG : ∀ M, G M ↔ ∃ h, Generated (lie g) (disc g) h ∧ M = (ein.den g (Interp.elem W custom g h)).1)
    (ht : FlowMoves odeint truth (ein.dim W g) G long)
    (learner : Learner Θ τ γ) (lrSched : ℝ → ℝ) {S : ℕ} {batches batches' : ℕ → ℕ → TrajBatch}
    (hb : ∀ e i, i < S → MovedTrajs G (ein.dim W g) (batches e i) (batches' e i))
    {loaders loaders' : List (String × Option ℕ × List TrajBatch)} (hl : MovedLoaders (MovedTrajs G (ein.dim W g)) loaders loaders')
    (s : ℕ × RunSt Θ τ) (calls : List (TrainCall × (ℕ → Bool))) :
    (dynamicsTrainer learner lrSched odeint (fun t => odeNet (E.apply W c act (ps t) (w t) (β t))) truth (ein.dim W g) long S batches' loaders').run s calls =
      (dynamicsTrainer learner lrSched odeint (fun t => odeNet (E.apply W c act (ps t) (w t) (β t))) truth (ein.dim W g) long S batches loaders).run s calls := by
  have hsq : ∀ M, G M → M.IsSq (ein.dim W g) ∧ M.transpose.mul M = DMat.one (ein.dim W g) := by
    intro M hM
    obtain ⟨h, hg, rfl⟩ := (hG M).1 hM
    exact ⟨(ein.den_pair (elem_dual (g := g) ok hg)).1, horth h hg⟩
  refine C122_training learner lrSched hsq (fun t ts hts => ?_) hlong ht hb hl s calls
  obtain ⟨x0, y0, hx0, h0⟩ := h0 t
  obtain ⟨f, hf, -⟩ := C111_input c hact E (ps t) (w t) (β t) h0
  have hl := (C40_widths hW hd hdN ok hsol hσ hrng hin hin hch hbi hbi hbf hN hE).2.2.2.2.2.2 (ps t) (w t) (β t) (hp t) c act
  refine flow_moves hode hts (fun z u hz => ?_) (fun _ _ _ => rfl) (field_smooth hact hx0 h0) fun M hM => ⟨(hsq M hM).1, (hsq M hM).2, fun z hz => ?_⟩
  · have := (hf z (hz.trans hx0.symm)).1
    exact ⟨_, this, hl z _ hz this⟩
  · obtain ⟨h, hg, rfl⟩ := (hG M).1 hM
    have h1 := (hf z (hz.trans hx0.symm)).1
    have h2 := C40_equivariant hW hd hdN ok hsol hσ hrng hin hin hch hbi hbi hbf hN hE (hp t) c act hg hz h1
    unfold total odeNet
    rw [h1, h2]
    rfl

/-- **C122, `EMLPH`.** A Hamiltonian network built by `EMLPH` on a representation of phase space that is orthogonal on the group, trained by
`IntegratedDynamicsTrainer`; `H t` is the Hamiltonian with parameters `t` and `grad t` its gradient, of which `BHamiltonianFlow` makes the field. -/
theorem C122_emlph (hW : W.SingleOK g N) (hd : 2 ≤ W.d g) (hdN : W.d g ≤ N) (ok : GroupsOK W custom lie disc)
    (hsol : SolverOK W (gensOf W (stdAtoms W custom) lie disc) solve) (hσ : NetReach W g (gensOf W (stdAtoms W custom) lie disc) solve σ)
    (hrng : RngOK rng) (hin : RepArg W g N ein rin) (hout : RepArg W g N .scalar rout) (hch : ch.Widths W g N b L ws)
    (hbi : ein.dim W g ≤ b) (hbo : 1 ≤ b) (hbf : b < fuel) (hN : (2 * b) * (2 * b) ≤ N)
    (hE : Emlp.init W (gensOf W (stdAtoms W custom) lie disc) solve rng fuel rin rout g ch L σ = .ok (E, σ'))
    {d : ℕ} (hps : PhaseSpace W g d ein) (horth : OrthogonalRep W custom lie disc g ein) (c : ℝ) {act : ℝ → ℝ} (hact : ContDiff ℝ 2 act)
    {ps : Θ → List (BlockParams ℝ)} {w : Θ → DMat ℝ} {β : Θ → List ℝ} (hp : ∀ t, E.Shaped (ps t) (w t) (β t))
    {H : Θ → List ℝ → ℝ} (hH : ∀ t x, x.length = d + d → hamiltonianNet (E.apply W c act (ps t) (w t) (β t)) x = .ok (H t x))
    {grad : Θ → List ℝ → List ℝ} (hgrad : ∀ t, IsGrad (d + d) (H t) (grad t))
    {odeint : Odeint} (hode : odeint.Natural) {truth : List ℝ → ℝ → Py (List ℝ)} {long : List ℝ} (hlong : Forward long)
    {G : DMat ℝ → Prop} (hG : ∀ M, G M ↔ ∃ h, Generated (lie g) (disc g) h ∧ M = (ein.den g (Interp.elem W custom g h)).1)
    (ht : FlowMoves odeint truth (d + d) G long)
    (learner : Learner Θ τ γ) (lrSched : ℝ → ℝ) {S : ℕ} {batches batches' : ℕ → ℕ → TrajBatch}
    (hb : ∀ e i, i < S → MovedTrajs G (d + d) (batches e i) (batches' e i))
    {loaders loaders' : List (String × Option ℕ × List TrajBatch)} (hl : MovedLoaders (MovedTrajs G (d + d)) loaders loaders')
    (s : ℕ × RunSt Θ τ) (calls : List (TrainCall × (ℕ → Bool))) :
    (dynamicsTrainer learner lrSched odeint (fun t z _ => hamiltonianDynamics (grad t) z) truth (d + d) long S batches' loaders').run s calls =
      (dynamicsTrainer learner lrSched odeint (fun t z _ => hamiltonianDynamics (grad t) z) truth (d + d) long S batches loaders).run s calls := by
  have hdim : ein.dim W g = d + d := (C91_phase_space hps (elem_dual (g := g) ok .one)).1
  have hsq : ∀ M, G M → M.IsSq (d + d) ∧ M.transpose.mul M = DMat.one (d + d) := by
    intro M hM
    obtain ⟨h, hg, rfl⟩ := (hG M).1 hM
    rw [← hdim]
    exact ⟨(ein.den_pair (elem_dual (g := g) ok hg)).1, horth h hg⟩
  refine C122_training learner lrSched hsq (fun t ts hts => ?_) hlong ht hb hl s calls
  obtain ⟨y0, h0⟩ : ∃ y0, E.apply W c act (ps t) (w t) (β t) (replicate (d + d) 0) = .ok y0 := by
    have := hH t (replicate (d + d) 0) (by simp)
    unfold hamiltonianNet at this
    cases h : E.apply W c act (ps t) (w t) (β t) (replicate (d + d) 0) with
    | error e =>
      rw [h] at this
      cases this
    | ok y => exact ⟨y, rfl⟩
  obtain ⟨hH', hsm⟩ := netEnergy_smooth hact (n := d + d) (by simp) h0
  have hgr : IsGrad (d + d) (netEnergy (E.apply W c act (ps t) (w t) (β t))) (grad t) := by
    have e : ∀ x : List ℝ, x.length = d + d → netEnergy (E.apply W c act (ps t) (w t) (β t)) x = H t x := fun x hx => by
      rw [netEnergy, hH t x hx]
      rfl
    exact isGrad_congr e (hgrad t)
  obtain ⟨H2, k1, -, k2⟩ := C112_emlph hW hd hdN ok hsol hσ hrng hin hout hch hbi hbo hbf hN hE (hp t) c hact hps (by simp) h0
  have hgr2 : IsGrad (d + d) H2 (grad t) := isGrad_congr (fun x hx => Except.ok.inj ((k1 x hx).symm.trans (hH t x hx))) (hgrad t)
  have heq := (k2 (grad t) hgr2).2.1
  refine flow_moves hode hts (fun z u hz => ?_) (fun _ _ _ => rfl) (gradField_smooth hgr hsm) fun M hM => ⟨(hsq M hM).1, (hsq M hM).2, fun z hz => ?_⟩
  · exact ⟨_, dynamics_ok hgr hz, by rw [DMat.length_mulVec]; rfl⟩
  · obtain ⟨h, hg, rfl⟩ := (hG M).1 hM
    obtain ⟨v, a1, a2⟩ := heq h hg z hz
    unfold total
    beta_reduce
    rw [a1, a2]
    rfl

end

/-- **C122, the true field.** The hypothesis on the true field is met for a twice differentiable Hamiltonian that the group keeps, as for a spring
without the natural length of `DoubleSpringPendulum`. -/
theorem C122_truth {odeint : Odeint} (hode : odeint.Natural) {d : ℕ} {H : List ℝ → ℝ} {grad : List ℝ → List ℝ} (hgrad : IsGrad (d + d) H grad)
    (hsm : ContDiff ℝ 2 fun v : Fin (d + d) → ℝ => H (List.ofFn v)) {G : DMat ℝ → Prop}
    (hG : ∀ M, G M → Symplectic d M ∧ M.transpose.mul M = DMat.one (d + d) ∧ ∀ x : List ℝ, x.length = d + d → H (M.mulVec x) = H x) {ts : List ℝ} (hts : Forward ts) :
    FlowMoves odeint (fun z _ => hamiltonianDynamics grad z) (d + d) G ts := by
  refine flow_moves hode hts (fun z u hz => ⟨_, dynamics_ok hgrad hz, by rw [DMat.length_mulVec]; rfl⟩) (fun _ _ _ => rfl) (gradField_smooth hgrad hsm)
    fun M hM => ⟨(hG M hM).1.1, (hG M hM).2.1, fun z hz => ?_⟩
  obtain ⟨v, a1, -, a2⟩ := C91_dynamics (hG M hM).1 (hG M hM).2.2 hz (hgrad z hz) (hgrad _ (by rw [DMat.length_mulVec, (hG M hM).1.1.1]))
  unfold total
  beta_reduce
  rw [a1, a2]
  rfl

/-- There is an integrator that is natural and exact, for all fields that the theorems speak of. -/
example : ∃ odeint : Odeint, odeint.Natural := by
  obtain ⟨o, h, -⟩ := exists_natural
  exact ⟨o, h⟩

/-- A minibatch of two trajectories of a plane, moved by a quarter and a half turn. -/
example : MovedTrajs (fun M => M.IsSq 2 ∧ M.transpose.mul M = DMat.one 2) 2
    [(([1, 0], [0, 1]), [[1, 0], [2, 0]]), (([0, 1], [0, 1]), [[0, 1], [0, 3]])]
    [(([0, 1], [0, 1]), [[0, 1], [0, 2]]), (([0, -1], [0, 1]), [[0, -1], [0, -3]])] := by
  refine ⟨by simp, .cons ⟨DMat.of 2 2 fun i j => if i = 0 ∧ j = 1 then -1 else if i = 1 ∧ j = 0 then 1 else 0, ⟨⟨rfl, rfl⟩, ?_⟩, ?_⟩
    (.cons ⟨DMat.of 2 2 fun i j => if i = j then -1 else 0, ⟨⟨rfl, rfl⟩, ?_⟩, ?_⟩ .nil)⟩
  · refine DMat.ext rfl rfl fun i j hi hj => ?_
    have hi : i < 2 := hi
    have hj : j < 2 := hj
    interval_cases i <;> interval_cases j <;> simp [DMat.mul, DMat.of, DMat.transpose, DMat.one, Finset.sum_range_succ]
  · simp [DMat.mulVec, DMat.of, Finset.sum_range_succ, range_succ]
  · refine DMat.ext rfl rfl fun i j hi hj => ?_
    have hi : i < 2 := hi
    have hj : j < 2 := hj
    interval_cases i <;> interval_cases j <;> simp [DMat.mul, DMat.of, DMat.transpose, DMat.one, Finset.sum_range_succ]
  · simp [DMat.mulVec, DMat.of, Finset.sum_range_succ, range_succ]

end Verif
