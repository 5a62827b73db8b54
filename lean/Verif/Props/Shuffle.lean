import Verif.Spec.Shuffle
import Verif.Props.Training

/-!
# C123: training does not depend on the order of the rows in a minibatch
-/
namespace Verif
open List

theorem pickRows_row (π : Equiv.Perm ℕ) {X : DMat ℝ} (hπ : ∀ i, π i < X.rows ↔ i < X.rows) {i : ℕ} (hi : i < X.rows) : (pickRows π X).row i = X.row (π i) := by
  refine ext_getElem (by simp [pickRows, DMat.of]) fun j h1 h2 => ?_
  have hj : j < X.cols := by simpa using h2
  rw [← getD_eq_getElem _ 0 h1, ← getD_eq_getElem _ 0 h2, DMat.getD_row, DMat.getD_row, pickRows, DMat.of_e hi hj]

theorem RowWise.pick {Θ : Type} {model : Θ → DMat ℝ → Py (DMat ℝ)} {n m : ℕ} (h : RowWise model n m) {X : DMat ℝ} (hX : X.cols = n) {π : Equiv.Perm ℕ}
    (hπ : ∀ i, π i < X.rows ↔ i < X.rows) (t : Θ) : ∃ P, model t X = .ok P ∧ P.rows = X.rows ∧ P.cols = m ∧ model t (pickRows π X) = .ok (pickRows π P) := by
  obtain ⟨f, h⟩ := h
  obtain ⟨P, e1, e2, e3, e4⟩ := h t X hX
  obtain ⟨Q, k1, k2, k3, k4⟩ := h t (pickRows π X) hX
  have k2 : Q.rows = X.rows := k2
  refine ⟨P, e1, e2, e3, ?_⟩
  rw [k1]
  congr 1
  refine DMat.ext (k2.trans e2.symm) (k3.trans e3.symm) fun i j hi hj => ?_
  have hi' : i < X.rows := k2 ▸ hi
  rw [← DMat.getD_row, k4 i hi', pickRows_row π hπ hi', ← e4 _ ((hπ i).2 hi'), DMat.getD_row, pickRows, DMat.of_e (by omega) (by omega)]

theorem range_shuffle {r : ℕ} {π : Equiv.Perm ℕ} (hπ : ∀ i, π i < r ↔ i < r) : (range r).map π ~ range r := by
  refine (perm_ext_iff_of_nodup (nodup_range.map π.injective) nodup_range).2 fun i => ?_
  rw [mem_map, mem_range]
  constructor
  · rintro ⟨k, hk, rfl⟩
    exact (hπ k).2 (mem_range.1 hk)
  · intro hi
    exact ⟨π.symm i, mem_range.2 ((hπ _).1 (by simpa using hi)), by simp⟩

theorem sum_shuffle {r : ℕ} {π : Equiv.Perm ℕ} (hπ : ∀ i, π i < r ↔ i < r) (f : ℕ → ℝ) : ∑ i ∈ Finset.range r, f (π i) = ∑ i ∈ Finset.range r, f i := by
  refine Finset.sum_nbij (fun i => π i) (fun i hi => ?_) (fun i _ j _ h => π.injective h) (fun i hi => ?_) fun _ _ => rfl
  · simpa [hπ] using hi
  · refine ⟨π.symm i, ?_, by simp⟩
    have : i < r := by simpa using hi
    simpa using (hπ (π.symm i)).1 (by simpa using this)

theorem mse_pick {P Y : DMat ℝ} (hr : Y.rows = P.rows) (hc : Y.cols = P.cols) {π : Equiv.Perm ℕ} (hπ : ∀ i, π i < P.rows ↔ i < P.rows) :
    mse (pickRows π P) (.d2 (pickRows π Y)) = mse P (.d2 Y) := by
  rw [mse_same (P := pickRows π P) (Y := pickRows π Y) (r := P.rows) (n := P.cols) rfl rfl hr hc, mse_same rfl rfl hr hc]
  congr 2
  rw [← sum_shuffle hπ fun i => ∑ j ∈ Finset.range P.cols, (P.e i j - Y.e i j) ^ 2]
  refine Finset.sum_congr rfl fun i hi => Finset.sum_congr rfl fun j hj => ?_
  have hi := Finset.mem_range.1 hi
  have hj := Finset.mem_range.1 hj
  rw [pickRows, pickRows, DMat.of_e hi hj, DMat.of_e (by omega) (by omega)]

theorem averageMetric_perm {β : Type} {bs : Option ℕ} {l l' : List β} (h : l.Perm l') {f : β → Py Fl} (hf : ∀ b ∈ l, ∃ v, f b = .ok v) :
    averageMetric bs l' f = averageMetric bs l f := by
  have key : ∀ (l : List β), (∀ b ∈ l, ∃ v, f b = .ok v) → ∀ a : Fl × ℕ,
      l.foldlM (m := Py) (fun (a : Fl × ℕ) b => do
        let v ← f b
        pure ((do let x ← a.1; let y ← v; pure (x + (bs.getD 1 : ℕ) * y) : Fl), a.2 + bs.getD 1)) a =
      .ok (l.foldl (fun (a : Fl × ℕ) b => ((do let x ← a.1; let y ← (f b).toOption.getD none; pure (x + (bs.getD 1 : ℕ) * y) : Fl), a.2 + bs.getD 1)) a) := by
    intro l
    induction l with
    | nil => intro _ a; rfl
    | cons b l ih =>
      intro hl a
      obtain ⟨v, hv⟩ := hl b (by simp)
      rw [foldlM_cons, foldl_cons, ← ih (fun b hb => hl b (by simp [hb])), hv]
      rfl
  unfold averageMetric
  dsimp only
  rw [key l' (fun b hb => hf b (h.mem_iff.2 hb)), key l hf, h.symm.foldl_eq']
  intro x _ y _ z
  rcases z with ⟨_ | z, k⟩
  · rfl
  · dsimp only
    cases (f x).toOption.getD none <;> cases (f y).toOption.getD none <;> simp [bind, Option.bind, pure, add_right_comm]

theorem meanFl_perm {l l' : List Fl} (h : l ~ l') : meanFl l = meanFl l' := by
  have e : ∀ l : List Fl, meanFl l = ((l.mapM id).map fun a => (a.sum, a.length)).bind fun p => fdiv p.1 p.2 := by
    intro l
    unfold meanFl meanOf
    cases l.mapM id <;> rfl
  rw [e, e]
  congr 1
  induction h with
  | nil => rfl
  | cons x _ ih =>
    rename_i l1 l2 _
    rw [mapM_cons, mapM_cons]
    cases x with
    | none => rfl
    | some x =>
      revert ih
      cases l1.mapM id <;> cases l2.mapM id <;> simp [bind, Option.bind, pure]
  | swap x y l =>
    rw [mapM_cons, mapM_cons, mapM_cons, mapM_cons]
    cases x <;> cases y <;> cases l.mapM id <;> simp [bind, Option.bind, pure, add_left_comm]
  | trans _ _ h1 h2 => exact h1.trans h2

theorem meanOf_perm {l l' : List ℝ} (h : l ~ l') : meanOf l = meanOf l' := by
  unfold meanOf
  rw [h.sum_eq, h.length_eq]

section
variable {Θ σ γ : Type}

theorem shuffled_metrics {β : Type} {R : β → β → Prop} {T T' : TrainerObj Θ σ γ β} (hT : T'.metrics = T.metrics)
    (hm : ∀ t, ∀ m ∈ T.metrics, ∀ b b', R b b' → m.2 t b' = m.2 t b ∧ ∃ v, m.2 t b = .ok v)
    {L L' : List (String × Option ℕ × List β)} (hl : ShuffledLoaders R L L') (t : Θ) : T'.allMetrics t L' = T.allMetrics t L := by
  refine allMetrics_average t (by rw [hT]; exact forall₂_same.2 fun _ _ => rfl) (hl.imp fun a a' h => ⟨h.1, h.2.1, fun m m' hmm => ?_⟩) (hl.imp fun a a' h => ?_)
  · obtain ⟨h1, h2, l, h3, h4⟩ := h
    rw [← h4.length_eq, h3.length_eq]
  · rw [hT] at hmm
    have e : m' = m := by
      obtain ⟨i, hi, e⟩ := getElem_of_mem hmm
      rw [getElem_zip] at e
      obtain ⟨rfl, rfl⟩ := Prod.mk.inj e
      rfl
    subst e
    have hmm : m' ∈ T.metrics := (of_mem_zip hmm).1
    obtain ⟨h1, h2, l, h3, h4⟩ := h
    have h5 : ∀ b ∈ l, ∃ v, m'.2 t b = .ok v := by
      intro b hb
      obtain ⟨i, hi, rfl⟩ := getElem_of_mem hb
      exact (hm t m' hmm _ _ ((forall₂_iff_get.1 h4).2 i hi (h4.length_eq ▸ hi))).2
    rw [h2, averageMetric_congr (h4.imp fun b b' hb => (hm t m' hmm b b' hb).1)]
    exact averageMetric_perm h3 fun b hb => h5 b (h3.mem_iff.1 hb)

/-- **C123, regression.** A model that computes row by row is trained by `Regressor`.  Give the rows of every minibatch in another order, and the minibatches of
the test data too.  For every optimizer, learning rate schedule, logging times and sequence of calls, the parameters, the state of the optimizer,
the epoch and the logged metrics are the same. -/
theorem C123_regressor (learner : Learner Θ σ γ) (lrSched : ℝ → ℝ) {model : Θ → DMat ℝ → Py (DMat ℝ)} {n m S : ℕ} (hrow : RowWise model n m)
    {batches batches' : ℕ → ℕ → DMat ℝ × DMat ℝ} (hb : ∀ e i, i < S → ShuffledBatch n m (batches e i) (batches' e i))
    {loaders loaders' : List (String × Option ℕ × List (DMat ℝ × DMat ℝ))} (hl : ShuffledLoaders (ShuffledBatch n m) loaders loaders')
    (s : ℕ × RunSt Θ σ) (calls : List (TrainCall × (ℕ → Bool))) :
    (regressor learner lrSched model S batches' loaders').run s calls = (regressor learner lrSched model S batches loaders).run s calls := by
  have key : ∀ t mb mb', ShuffledBatch n m mb mb' → regressorLoss model t mb' = regressorLoss model t mb ∧ ∃ v, regressorLoss model t mb = .ok v := by
    rintro t ⟨X, Y⟩ mb' ⟨h1, h2, h3, π, hπ, rfl⟩
    dsimp only at h1 h2 h3 hπ
    obtain ⟨P, e1, e2, e3, e4⟩ := hrow.pick h1 hπ t
    unfold regressorLoss
    dsimp only
    rw [e1, e4]
    refine ⟨mse_pick (h3.trans e2.symm) (h2.trans e3.symm) (by rwa [e2]), ?_⟩
    exact ⟨_, mse_same rfl rfl (h3.trans e2.symm) (h2.trans e3.symm)⟩
  refine TrainerObj.Agree.run (T := regressor learner lrSched model S batches loaders) (T' := regressor learner lrSched model S batches' loaders')
    ⟨rfl, rfl, rfl, fun e i hi t => (key t _ _ (hb e i hi)).1, fun t => ?_, fun _ _ => rfl⟩ calls s
  refine shuffled_metrics (T := regressor learner lrSched model S batches loaders) (T' := regressor learner lrSched model S batches' loaders') (R := ShuffledBatch n m) rfl (fun t mt hmt b b' hbb => ?_) hl t
  have : mt = ("MSE", regressorLoss model) := by simpa [regressor] using hmt
  subst this
  exact key t b b' hbb

/-- **C123, classification.** The same for `Classifier`. -/
theorem C123_classifier (learner : Learner Θ σ γ) (lrSched : ℝ → ℝ) (oob : List ℝ → ℤ → Fl) {model : Θ → DMat ℝ → Py (DMat ℝ)} {n m S : ℕ} (hm : 0 < m)
    (hrow : RowWise model n m) {batches batches' : ℕ → ℕ → DMat ℝ × List ℤ} (hb : ∀ e i, i < S → ShuffledClasses n (batches e i) (batches' e i))
    {loaders loaders' : List (String × Option ℕ × List (DMat ℝ × List ℤ))} (hl : ShuffledLoaders (ShuffledClasses n) loaders loaders')
    (s : ℕ × RunSt Θ σ) (calls : List (TrainCall × (ℕ → Bool))) :
    (classifier learner lrSched oob model S batches' loaders').run s calls = (classifier learner lrSched oob model S batches loaders).run s calls := by
  have hlist : ∀ y : List ℤ, y = (range y.length).map fun i => y.getD i 0 := by
    intro y
    refine ext_getElem (by simp) fun i h1 h2 => ?_
    rw [getElem_map, getElem_range, getD_eq_getElem _ _ h1]
  have hpick : ∀ (π : Equiv.Perm ℕ) (P : DMat ℝ), (∀ i, π i < P.rows ↔ i < P.rows) → (range (pickRows π P).rows).map (pickRows π P).row = (range P.rows).map fun i => P.row (π i) := by
    intro π P hπ
    exact map_congr_left fun i hi => pickRows_row π hπ (mem_range.1 hi)
  have harg : ∀ (k : ℕ) (r : ℕ → List ℝ), (∀ i, (r i).length = m) → ((range k).map r).mapM argmax = .ok ((range k).map fun i => (argmax (r i)).toOption.getD 0) := by
    intro k r hr
    have : ∀ l : List ℕ, (l.map r).mapM argmax = .ok (l.map fun i => (argmax (r i)).toOption.getD 0) := by
      intro l
      induction l with
      | nil => rfl
      | cons i l ih =>
        rw [map_cons, mapM_cons, ih]
        have := hr i
        cases h : r i with
        | nil =>
          rw [h] at this
          simp at this
          omega
        | cons a as =>
          rw [map_cons, h]
          rfl
    exact this _
  have key : ∀ t mb mb', ShuffledClasses n mb mb' → (∃ P P', model t mb.1 = .ok P ∧ model t mb'.1 = .ok P' ∧
      classifierLoss oob ((range P'.rows).map P'.row) mb'.2 = classifierLoss oob ((range P.rows).map P.row) mb.2 ∧
      accuracy ((range P'.rows).map P'.row) mb'.2 = accuracy ((range P.rows).map P.row) mb.2 ∧ ∃ v, accuracy ((range P.rows).map P.row) mb.2 = .ok v) := by
    rintro t ⟨X, y⟩ mb' ⟨h1, h2, π, hπ, rfl⟩
    dsimp only at h1 h2 hπ
    obtain ⟨P, e1, e2, e3, e4⟩ := hrow.pick h1 hπ t
    have hπ' : ∀ i, π i < P.rows ↔ i < P.rows := by rwa [e2]
    have hy : y.length = P.rows := h2.trans e2.symm
    refine ⟨P, _, e1, e4, ?_, ?_, ?_⟩
    · rw [hpick π P hπ']
      conv_rhs => rw [hlist y]
      unfold classifierLoss crossEntropy
      dsimp only
      rw [hy, map_map, map_map, zipWith_map, zipWith_self, zipWith_map, zipWith_self]
      congr 1
      refine meanFl_perm ?_
      have := (range_shuffle hπ').map fun i => takeAlong oob ((logSoftmax ∘ P.row) i) (y.getD i 0)
      rwa [map_map] at this
    · rw [hpick π P hπ']
      conv_rhs => rw [hlist y]
      unfold accuracy
      dsimp only
      rw [harg _ _ fun i => (by simp [e3]), harg _ _ fun i => (by simp [e3])]
      show Except.ok _ = Except.ok _
      rw [hy, zipWith_map, zipWith_self, zipWith_map, zipWith_self]
      congr 1
      refine meanOf_perm ?_
      have := (range_shuffle hπ').map fun i => if (((argmax (P.row i)).toOption.getD 0 : ℕ) : ℤ) = y.getD i 0 then (1 : ℝ) else 0
      rwa [map_map] at this
    · unfold accuracy
      rw [harg _ _ fun i => (by simp [e3])]
      exact ⟨_, rfl⟩
  refine TrainerObj.Agree.run (T := classifier learner lrSched oob model S batches loaders) (T' := classifier learner lrSched oob model S batches' loaders')
    ⟨rfl, rfl, rfl, fun e i hi t => ?_, fun t => ?_, fun _ _ => rfl⟩ calls s
  · obtain ⟨P, P', k1, k2, k3, -⟩ := key t _ _ (hb e i hi)
    unfold classifier
    dsimp only
    rw [k1, k2]
    show Except.ok _ = Except.ok _
    rw [k3]
  · refine shuffled_metrics (T := classifier learner lrSched oob model S batches loaders)
      (T' := classifier learner lrSched oob model S batches' loaders') (R := ShuffledClasses n) rfl (fun t mt hmt b b' hbb => ?_) hl t
    unfold classifier at hmt
    rw [mem_singleton] at hmt
    subst hmt
    obtain ⟨P, P', k1, k2, -, k3, k4⟩ := key t _ _ hbb
    dsimp only
    rw [k1, k2]
    exact ⟨k3, k4⟩

end

section
variable {W : World} {g : Gid} {N : ℕ} {custom : ∀ k g, AtomRep ℝ (W.d g) (W.usize k g)}
  {lie disc : ∀ g, List (Matrix (Fin (W.d g)) (Fin (W.d g)) ℝ)} {solve : ℕ → LinOp ℝ → Py (DMat ℝ)} {rng : Rng} {σ σ' : NetSt ℝ}
  {ein eout : Expr} {rin rout : Rep} {fuel b L : ℕ} {ch : Ch} {ws : List ℕ} {E : Emlp ℝ} {Θ : Type}

/-- **C123, networks.** The networks of all front ends compute row by row. -/
theorem C123_network (hW : W.SingleOK g N) (hd : 2 ≤ W.d g) (hdN : W.d g ≤ N) (ok : GroupsOK W custom lie disc)
    (hsol : SolverOK W (gensOf W (stdAtoms W custom) lie disc) solve) (hσ : NetReach W g (gensOf W (stdAtoms W custom) lie disc) solve σ)
    (hrng : RngOK rng) (hin : RepArg W g N ein rin) (hout : RepArg W g N eout rout) (hch : ch.Widths W g N b L ws)
    (hbi : ein.dim W g ≤ b) (hbo : eout.dim W g ≤ b) (hbf : b < fuel) (hN : (2 * b) * (2 * b) ≤ N) (F : FrontEnd)
    (hE : F.emlp W (gensOf W (stdAtoms W custom) lie disc) solve rng fuel rin rout g ch L σ = .ok (E, σ')) (c : ℝ) (act : ℝ → ℝ)
    {ps : Θ → List (BlockParams ℝ)} {w : Θ → DMat ℝ} {β : Θ → List ℝ} (hp : ∀ t, E.Shaped (ps t) (w t) (β t))
    {t0 : Θ} {X0 P0 : DMat ℝ} (h0 : F.apply W c act E (ps t0) (w t0) (β t0) X0 = .ok P0) :
    RowWise (fun t X => F.apply W c act E (ps t) (w t) (β t) X) (ein.dim W g) (eout.dim W g) := by
  refine ⟨fun t x => (E.apply W c act (ps t) (w t) (β t) x).toOption.getD [], fun t X hX => ?_⟩
  obtain ⟨P, e1, e2, e3, e4⟩ := emlp_returns hW hd hdN ok hsol hσ hrng hin hout hch hbi hbo hbf hN F hE c act (hp t0) h0 (hp t) X hX
  refine ⟨P, e1, e2, e3, fun i hi => ?_⟩
  dsimp only
  rw [e4 i hi]
  rfl

end

/-- A minibatch with its two rows exchanged. -/
example : ShuffledBatch 2 1 (DMat.of 2 2 fun i j => (2 * i + j : ℕ), DMat.of 2 1 fun i _ => (i : ℝ))
    (DMat.of 2 2 fun i j => (2 * (1 - i) + j : ℕ), DMat.of 2 1 fun i _ => ((1 - i : ℕ) : ℝ)) := by
  refine ⟨rfl, rfl, rfl, Equiv.swap 0 1, fun i => ?_, ?_⟩
  · show Equiv.swap 0 1 i < 2 ↔ i < 2
    rcases Nat.lt_or_ge i 2 with h | h
    · interval_cases i <;> simp
    · rw [Equiv.swap_apply_of_ne_of_ne (by omega) (by omega)]
  · refine Prod.ext (DMat.ext rfl rfl fun i j hi hj => ?_) (DMat.ext rfl rfl fun i j hi hj => ?_)
    · have hi : i < 2 := hi
      have hj : j < 2 := hj
      interval_cases i <;> interval_cases j <;> simp [pickRows, DMat.of]
    · have hi : i < 2 := hi
      have hj : j < 1 := hj
      interval_cases i <;> interval_cases j <;> simp [pickRows, DMat.of]

/-- A linear model computes row by row. -/
example (A : DMat ℝ) : RowWise (fun (t : ℝ) X => (.ok (DMat.of X.rows A.rows fun i j => t * (A.mulVec (X.row i)).getD j 0) : Py (DMat ℝ))) A.cols A.rows := by
  refine ⟨fun t x => (range A.rows).map fun j => t * (A.mulVec x).getD j 0, fun t X _ => ⟨_, rfl, rfl, rfl, fun i hi => ?_⟩⟩
  refine ext_getElem (by simp [DMat.of]) fun j h1 h2 => ?_
  have hj : j < A.rows := by simpa using h2
  rw [← getD_eq_getElem _ 0 h1, DMat.getD_row, DMat.of_e hi hj, getElem_map, getElem_range]

end Verif
