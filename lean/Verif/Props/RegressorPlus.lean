import Verif.Model.RegressorPlus
import Verif.Props.Training
import Verif.Props.Standardize
import Verif.Props.Errors

/-!
# C125: what `RegressorPlus` and `ClassifierPlus` add to training
-/
namespace Verif
open List

section
variable {Θ σ γ β γ' : Type}

/-- A row of the log that is not one of `test_equivar_err`. -/
def plainRow (row : ℕ × List (String × Fl)) : Bool := row.2.map Prod.fst ≠ ["test_equivar_err"]

/-- The state without the rows of `test_equivar_err` in the log. -/
def RunSt.plain (s : RunSt Θ σ) : RunSt Θ σ := { s with log := s.log.filter plainRow }

theorem everyFifth_getElem? (l : List β) (i : ℕ) : (everyFifth l)[i]? = l[5 * i]? := by
  induction i generalizing l with
  | zero => cases l <;> simp [everyFifth]
  | succ i ih =>
    cases l with
    | nil => simp [everyFifth]
    | cons b l =>
      rw [everyFifth, getElem?_cons_succ, ih, getElem?_drop, show 5 * (i + 1) = (4 + 5 * i) + 1 by ring, getElem?_cons_succ]

theorem allMetrics_keys (T : TrainerObj Θ σ γ β) (t : Θ) : ∀ (L : List (String × Option ℕ × List β)) (m : List (String × Fl)), T.allMetrics t L = .ok m →
    ∀ x ∈ m, ∃ name, ∃ μ ∈ T.metrics, x.1 = name ++ "_" ++ μ.1
  | [], m, h, x, hx => by
    cases h
    simp at hx
  | (name, bs, l) :: L, m, h, x, hx => by
    have hm : ∀ (M : List (String × (Θ → β → Py Fl))) (r : List (String × Fl)),
        (M.mapM fun m => (averageMetric bs l (m.2 t) >>= fun v => pure (name ++ "_" ++ m.1, v) : Py _)) = .ok r → ∀ x ∈ r, ∃ μ ∈ M, x.1 = name ++ "_" ++ μ.1 := by
      intro M
      induction M with
      | nil => intro r hr x hx; cases hr; simp at hx
      | cons μ M ih =>
        intro r hr x hx
        rw [mapM_cons] at hr
        cases hv : averageMetric bs l (μ.2 t) with
        | error e => rw [hv] at hr; cases hr
        | ok v =>
          rw [hv] at hr
          cases hM : M.mapM fun m => (averageMetric bs l (m.2 t) >>= fun v => pure (name ++ "_" ++ m.1, v) : Py _) with
          | error e => rw [hM] at hr; cases hr
          | ok r' =>
            rw [hM] at hr
            cases hr
            rcases mem_cons.1 hx with rfl | hx
            · exact ⟨μ, by simp, rfl⟩
            · obtain ⟨μ', h1, h2⟩ := ih r' hM x hx
              exact ⟨μ', by simp [h1], h2⟩
    rw [TrainerObj.allMetrics] at h
    cases hr : T.allMetrics t L with
    | error e =>
      rw [hr] at h
      exfalso
      revert h
      by_cases hc : name = "train" ∨ l.length = 0
      · rw [if_pos hc]; intro h; cases h
      · rw [if_neg hc]
        split
        · intro h; cases h
        · intro h; cases h
        · cases (T.metrics.mapM fun m => (averageMetric bs l (m.2 t) >>= fun v => pure (name ++ "_" ++ m.1, v) : Py _)) <;> intro h <;> cases h
    | ok rest =>
      rw [hr] at h
      have ih := allMetrics_keys T t L rest hr
      revert h
      by_cases hc : name = "train" ∨ l.length = 0
      · rw [if_pos hc]; intro h; cases h; obtain ⟨a, b⟩ := ih x (by simpa using hx); exact ⟨a, b⟩
      · rw [if_neg hc]
        split
        · intro h; cases h
        · intro h; cases h; obtain ⟨a, b⟩ := ih x (by simpa using hx); exact ⟨a, b⟩
        · cases hM : (T.metrics.mapM fun m => (averageMetric bs l (m.2 t) >>= fun v => pure (name ++ "_" ++ m.1, v) : Py _)) with
          | error e => intro h; cases h
          | ok here =>
            intro h
            cases h
            rcases mem_append.1 hx with hx | hx
            · exact ⟨name, hm _ _ hM x hx⟩
            · exact ih x hx

/-- **C125, training.** Logging the equivariance error does not change training.  A run of `RegressorPlus` or `ClassifierPlus` is the run of `Regressor` or
`Classifier`: the same parameters, optimizer states, epochs and rows of the log, apart from the rows with `test_equivar_err`; or it raises what computing this error
raised. -/
theorem C125_training (T : TrainerObj Θ σ γ (DMat ℝ × γ')) (hT : ∀ k t, T.first k t = .ok [])
    (hn : ∀ name, ∀ μ ∈ T.metrics, name ++ "_" ++ μ.1 ≠ "test_equivar_err") (predict : Θ → DMat ℝ → Py (DMat ℝ)) (rin rout : DMat ℝ → DMat ℝ)
    (samples : ℕ → ℕ → ℕ → List (DMat ℝ)) (e : ℕ) (s : RunSt Θ σ) (calls : List (TrainCall × (ℕ → Bool))) :
    T.run (e, s.plain) calls = ((T.plus predict rin rout samples).run (e, s) calls).map (fun r => (r.1, r.2.plain)) ∨
    ∃ k t err, equivarLog predict rin rout samples T.loaders k t = .error err ∧ (T.plus predict rin rout samples).run (e, s) calls = .error err := by
  obtain ⟨T', hT'⟩ : ∃ T', T' = T.plus predict rin rout samples := ⟨_, rfl⟩
  have hall : ∀ t L, T'.allMetrics t L = T.allMetrics t L := by
    intro t L
    induction L with
    | nil => rfl
    | cons a L ih =>
      obtain ⟨name, bs, l⟩ := a
      rw [TrainerObj.allMetrics, TrainerObj.allMetrics, ih, hT']
      rfl
  have hexec : ∀ (s : RunSt Θ σ) (a : Ev), T.exec s.plain a = (T'.exec s a).map RunSt.plain ∨
      ∃ k t err, equivarLog predict rin rout samples T.loaders k t = .error err ∧ T'.exec s a = .error err := by
    intro s a
    cases a with
    | step ep i st =>
      left
      have : T'.exec s (.step ep i st) = T.exec s (.step ep i st) := by rw [hT']; rfl
      rw [this]
      simp only [TrainerObj.exec, TrainerObj.step]
      show (T.learner.gradvals _ s.params >>= _) = _
      cases T.learner.gradvals (fun t => T.loss t (T.batches ep i)) s.params with
      | error e => rfl
      | ok g => rfl
    | log st =>
      have hf : T'.first = equivarLog predict rin rout samples T.loaders := by rw [hT']; rfl
      have hl : T'.loaders = T.loaders := by rw [hT']; rfl
      simp only [TrainerObj.exec, hf, hl, hall, hT]
      cases hv : equivarLog predict rin rout samples T.loaders s.log.length s.params with
      | error err => exact .inr ⟨_, _, err, hv, rfl⟩
      | ok rows =>
        left
        have hrows : ∃ v, rows = [[("test_equivar_err", v)]] := by
          unfold equivarLog at hv
          split at hv
          · cases hv
          · rename_i x _
            cases hm : averageMetric none (everyFifth x.2.2).zipIdx fun b => equivarianceErr (predict s.params) rin rout b.1.1 (samples s.log.length b.2 b.1.1.rows) with
            | error e => rw [hm] at hv; cases hv
            | ok v => rw [hm] at hv; cases hv; exact ⟨v, rfl⟩
        obtain ⟨v, rfl⟩ := hrows
        show (T.allMetrics s.params T.loaders >>= _) = Except.map _ (T.allMetrics s.params T.loaders >>= _)
        cases hm : T.allMetrics s.params T.loaders with
        | error e => rfl
        | ok m =>
          show Except.ok _ = Except.ok _
          congr 1
          unfold RunSt.plain
          congr 1
          have hm' : plainRow (st, m) = true := by
            unfold plainRow
            simp only [ne_eq, decide_eq_true_eq]
            intro h
            obtain ⟨x, hx1, hx2⟩ : ∃ x ∈ m, x.1 = "test_equivar_err" := by
              have : "test_equivar_err" ∈ m.map Prod.fst := by rw [h]; simp
              obtain ⟨x, h1, h2⟩ := mem_map.1 this
              exact ⟨x, h1, h2⟩
            obtain ⟨name, μ, h1, h2⟩ := allMetrics_keys T s.params _ m hm x hx1
            exact hn name μ h1 (h2.symm.trans hx2)
          have h0 : plainRow (st, [("test_equivar_err", v)]) = false := by simp [plainRow]
          simp [filter_append, filter_cons, hm', h0]
  have hfold : ∀ (evs : List Ev) (s : RunSt Θ σ), evs.foldlM T.exec s.plain = (evs.foldlM T'.exec s).map RunSt.plain ∨
      ∃ k t err, equivarLog predict rin rout samples T.loaders k t = .error err ∧ evs.foldlM T'.exec s = .error err := by
    intro evs
    induction evs with
    | nil => intro s; exact .inl rfl
    | cons a evs ih =>
      intro s
      rw [foldlM_cons, foldlM_cons]
      rcases hexec s a with h | ⟨k, t, err, h1, h2⟩
      · rw [h]
        cases T'.exec s a with
        | error e => exact .inl rfl
        | ok s' => exact ih s'
      · rw [h2]
        exact .inr ⟨k, t, err, h1, rfl⟩
  have hcall : ∀ (dl : ℕ → Bool) (e : ℕ) (s : RunSt Θ σ) (c : TrainCall), T.call dl (e, s.plain) c = (T'.call dl (e, s) c).map (fun r => (r.1, r.2.plain)) ∨
      ∃ k t err, equivarLog predict rin rout samples T.loaders k t = .error err ∧ T'.call dl (e, s) c = .error err := by
    intro dl e s c
    have hlen : T'.trainLen = T.trainLen := by rw [hT']; rfl
    cases c with
    | train num =>
      simp only [TrainerObj.call, bind, Except.bind, hlen]
      rcases hfold (train dl T.trainLen num ⟨e, []⟩).ev s with h | ⟨k, t, err, h1, h2⟩
      · rw [h]
        cases (train dl T.trainLen num ⟨e, []⟩).ev.foldlM T'.exec s <;> exact .inl rfl
      · rw [h2]
        exact .inr ⟨k, t, err, h1, rfl⟩
    | trainTo final =>
      simp only [TrainerObj.call, hlen]
      cases trainTo dl T.trainLen final ⟨e, []⟩ with
      | error e => exact .inl rfl
      | ok tr =>
        simp only [bind, Except.bind]
        rcases hfold tr.ev s with h | ⟨k, t, err, h1, h2⟩
        · rw [h]
          cases tr.ev.foldlM T'.exec s <;> exact .inl rfl
        · rw [h2]
          exact .inr ⟨k, t, err, h1, rfl⟩
  rw [← hT']
  induction calls generalizing e s with
  | nil => exact .inl rfl
  | cons c cs ih =>
    rw [TrainerObj.run, TrainerObj.run]
    rcases hcall c.2 e s c.1 with h | ⟨k, t, err, h1, h2⟩
    · rw [h]
      cases T'.call c.2 (e, s) c.1 with
      | error e => exact .inl rfl
      | ok r => exact ih r.1 r.2
    · rw [h2]
      exact .inr ⟨k, t, err, h1, rfl⟩

/-- **C125, the two trainers.** The names of the metrics of `Regressor` and `Classifier` do not clash with that of the equivariance error. -/
theorem C125_names (name : String) : name ++ "_" ++ "MSE" ≠ "test_equivar_err" ∧ name ++ "_" ++ "Acc" ≠ "test_equivar_err" := by
  constructor <;> intro h
  · have := congrArg (fun s : String => s.toList.getLast?) h
    simp at this
  · have := congrArg (fun s : String => s.toList.getLast?) h
    simp at this

/-- What a run adds to the log: the rows of `first` and the metrics, at some parameters. -/
theorem run_log (T : TrainerObj Θ σ γ β) (e : ℕ) (s : RunSt Θ σ) (calls : List (TrainCall × (ℕ → Bool))) {r : ℕ × RunSt Θ σ} (h : T.run (e, s) calls = .ok r) :
    ∃ new, r.2.log = s.log ++ new ∧ ∀ row ∈ new, (∃ k t rows, T.first k t = .ok rows ∧ row.2 ∈ rows) ∨ ∃ t, T.allMetrics t T.loaders = .ok row.2 := by
  obtain ⟨Q, hQ⟩ : ∃ Q : ℕ × List (String × Fl) → Prop, Q = fun row => (∃ k t rows, T.first k t = .ok rows ∧ row.2 ∈ rows) ∨ ∃ t, T.allMetrics t T.loaders = .ok row.2 := ⟨_, rfl⟩
  have hexec : ∀ (s s' : RunSt Θ σ) (a : Ev), T.exec s a = .ok s' → ∃ new, s'.log = s.log ++ new ∧ ∀ row ∈ new, Q row := by
    intro s s' a h
    cases a with
    | step ep i st =>
      simp only [TrainerObj.exec, TrainerObj.step] at h
      cases hg : T.learner.gradvals (fun t => T.loss t (T.batches ep i)) s.params with
      | error e => rw [hg] at h; cases h
      | ok g => rw [hg] at h; cases h; exact ⟨[], by simp, by simp⟩
    | log st =>
      simp only [TrainerObj.exec] at h
      cases hf : T.first s.log.length s.params with
      | error e => rw [hf] at h; cases h
      | ok rows =>
        rw [hf] at h
        cases hm : T.allMetrics s.params T.loaders with
        | error e => simp only [bind, Except.bind, hm] at h; cases h
        | ok m =>
          simp only [bind, Except.bind, hm] at h
          cases h
          refine ⟨rows.map (fun r => (st, r)) ++ [(st, m)], by simp, fun row hrow => ?_⟩
          rw [hQ]
          rcases mem_append.1 hrow with hrow | hrow
          · obtain ⟨r, hr, rfl⟩ := mem_map.1 hrow
            exact .inl ⟨_, _, rows, hf, hr⟩
          · rw [mem_singleton.1 hrow]
            exact .inr ⟨_, hm⟩
  have hfold : ∀ (evs : List Ev) (s s' : RunSt Θ σ), evs.foldlM T.exec s = .ok s' → ∃ new, s'.log = s.log ++ new ∧ ∀ row ∈ new, Q row := by
    intro evs
    induction evs with
    | nil => intro s s' h; cases h; exact ⟨[], by simp, by simp⟩
    | cons a evs ih =>
      intro s s' h
      rw [foldlM_cons] at h
      cases ha : T.exec s a with
      | error e => rw [ha] at h; cases h
      | ok s1 =>
        rw [ha] at h
        obtain ⟨n1, h1, h2⟩ := hexec s s1 a ha
        obtain ⟨n2, h3, h4⟩ := ih s1 s' h
        refine ⟨n1 ++ n2, by rw [h3, h1, append_assoc], fun row hrow => ?_⟩
        rcases mem_append.1 hrow with hr | hr
        · exact h2 row hr
        · exact h4 row hr
  suffices hh : ∃ new, r.2.log = s.log ++ new ∧ ∀ row ∈ new, Q row by rw [hQ] at hh; exact hh
  induction calls generalizing e s with
  | nil => cases h; exact ⟨[], by simp, by simp⟩
  | cons c cs ih =>
    rw [TrainerObj.run] at h
    cases hc : T.call c.2 (e, s) c.1 with
    | error e => rw [hc] at h; cases h
    | ok r1 =>
      rw [hc] at h
      obtain ⟨n2, h3, h4⟩ := ih r1.1 r1.2 h
      have : ∃ evs : List Ev, evs.foldlM T.exec s = .ok r1.2 := by
        cases hc' : c.1 with
        | train num =>
          rw [hc'] at hc
          simp only [TrainerObj.call, bind, Except.bind] at hc
          cases hf : (train c.2 T.trainLen num ⟨e, []⟩).ev.foldlM T.exec s with
          | error e => rw [hf] at hc; cases hc
          | ok s' => rw [hf] at hc; cases hc; exact ⟨_, hf⟩
        | trainTo final =>
          rw [hc'] at hc
          simp only [TrainerObj.call] at hc
          cases htr : trainTo c.2 T.trainLen final ⟨e, []⟩ with
          | error e => rw [htr] at hc; cases hc
          | ok tr =>
            rw [htr] at hc
            simp only [bind, Except.bind] at hc
            cases hf : tr.ev.foldlM T.exec s with
            | error e => rw [hf] at hc; cases hc
            | ok s' => rw [hf] at hc; cases hc; exact ⟨_, hf⟩
      obtain ⟨evs, hevs⟩ := this
      obtain ⟨n1, h1, h2⟩ := hfold evs s r1.2 hevs
      refine ⟨n1 ++ n2, by rw [h3, h1, append_assoc], fun row hrow => ?_⟩
      rcases mem_append.1 hrow with hr | hr
      · exact h2 row hr
      · exact h4 row hr

end

/-! ### The average over the minibatches -/

theorem averageMetric_none {β : Type} {l : List β} {f : β → Py Fl} {v : Fl} (h : averageMetric none l f = .ok v) :
    l ≠ [] ∧ (∀ b ∈ l, ∃ y, f b = .ok y) ∧ (v = none → ∃ b ∈ l, f b = .ok none) ∧
      ∀ x, v = some x → ∃ xs : List ℝ, Forall₂ (fun b y => f b = .ok (some y)) l xs ∧ x = xs.sum / l.length := by
  have key : ∀ (l : List β) (a r : Fl × ℕ), l.foldlM (m := Py) (fun (a : Fl × ℕ) b => do
        let v ← f b
        pure ((do let x ← a.1; let y ← v; pure (x + (1 : ℕ) * y) : Fl), a.2 + 1)) a = .ok r →
      r.2 = a.2 + l.length ∧ (∀ b ∈ l, ∃ y, f b = .ok y) ∧ (r.1 = none → a.1 = none ∨ ∃ b ∈ l, f b = .ok none) ∧
        ∀ x, r.1 = some x → ∃ x0, a.1 = some x0 ∧ ∃ xs : List ℝ, Forall₂ (fun b y => f b = .ok (some y)) l xs ∧ x = x0 + xs.sum := by
    intro l
    induction l with
    | nil =>
      intro a r hr
      cases hr
      exact ⟨rfl, by simp, fun h => .inl h, fun x hx => ⟨x, hx, [], .nil, by simp⟩⟩
    | cons b l ih =>
      intro a r hr
      rw [foldlM_cons] at hr
      cases hb : f b with
      | error e => rw [hb] at hr; cases hr
      | ok y =>
        rw [hb] at hr
        obtain ⟨h1, h2, h3, h4⟩ := ih _ r hr
        refine ⟨by rw [h1, length_cons]; dsimp only; ring, ?_, ?_, ?_⟩
        · intro b' hb'
          rcases mem_cons.1 hb' with rfl | hb'
          · exact ⟨y, hb⟩
          · exact h2 b' hb'
        · intro hn
          rcases h3 hn with h | ⟨b', h5, h6⟩
          · cases ha : a.1 with
            | none => exact .inl rfl
            | some x0 =>
              cases y with
              | none => exact .inr ⟨b, by simp, hb⟩
              | some y => rw [ha] at h; cases h
          · exact .inr ⟨b', by simp [h5], h6⟩
        · intro x hx
          obtain ⟨x0, h5, xs, h6, h7⟩ := h4 x hx
          cases ha : a.1 with
          | none => rw [ha] at h5; cases h5
          | some z =>
            cases y with
            | none => rw [ha] at h5; cases h5
            | some y =>
              rw [ha] at h5
              have h5 : z + (1 : ℕ) * y = x0 := Option.some.inj h5
              exact ⟨z, rfl, y :: xs, .cons hb h6, by rw [h7, ← h5, sum_cons]; push_cast; ring⟩
  unfold averageMetric at h
  dsimp only [Option.getD_none] at h
  cases hr : l.foldlM (m := Py) (fun (a : Fl × ℕ) b => do
        let v ← f b
        pure ((do let x ← a.1; let y ← v; pure (x + (1 : ℕ) * y) : Fl), a.2 + 1)) ((some 0 : Fl), 0) with
  | error e =>
    simp only [bind, Except.bind] at h hr
    rw [hr] at h
    cases h
  | ok r =>
    obtain ⟨h1, h2, h3, h4⟩ := key l _ r hr
    simp only [bind, Except.bind] at h hr
    rw [hr] at h
    dsimp only at h
    by_cases h0 : r.2 = 0
    · rw [if_pos h0] at h; cases h
    · rw [if_neg h0] at h
      have h := Except.ok.inj h
      have hl : r.2 = l.length := by rw [h1]; simp
      refine ⟨?_, h2, ?_, ?_⟩
      · rintro rfl; exact h0 (by rw [hl]; rfl)
      · intro hv
        rw [hv] at h
        rcases h3 (by cases h9 : r.1 with | none => rfl | some z => rw [h9] at h; cases h) with h | h
        · cases h
        · exact h
      · intro x hx
        rw [hx] at h
        cases h9 : r.1 with
        | none => rw [h9] at h; cases h
        | some z =>
          rw [h9] at h
          obtain ⟨x0, h5, xs, h6, h7⟩ := h4 z h9
          have h5 : (0 : ℝ) = x0 := Option.some.inj h5
          have h : z / (r.2 : ℝ) = x := Option.some.inj h
          exact ⟨xs, h6, by rw [← h, h7, ← h5, hl, zero_add]⟩

theorem all_zero_of_sum : ∀ {xs : List ℝ}, (∀ y ∈ xs, 0 ≤ y) → xs.sum = 0 → ∀ y ∈ xs, y = 0
  | [], _, _ => by simp
  | x :: xs, h, hs => by
    rw [sum_cons] at hs
    have h1 := h x (by simp)
    have h2 : 0 ≤ xs.sum := sum_nonneg fun y hy => h y (by simp [hy])
    have ih := all_zero_of_sum (xs := xs) (fun y hy => h y (by simp [hy])) (by linarith)
    intro y hy
    rcases mem_cons.1 hy with rfl | hy
    · linarith
    · exact ih y hy

/-! ### The equivariance error of one minibatch -/

/-- The element for row `i`. -/
def sampleAt (ρ : DMat ℝ → DMat ℝ) (gs : List (DMat ℝ)) (i : ℕ) : DMat ℝ := ρ (gs.getD i (DMat.one 0))

/-- Samples for a batch with `n` rows: as many `d × d` matrices, on which the representations have their sizes. -/
structure BatchSamples (d nin nout : ℕ) (rin rout : DMat ℝ → DMat ℝ) (n : ℕ) (gs : List (DMat ℝ)) : Prop where
  len : gs.length = n
  sq : ∀ g ∈ gs, g.IsSq d ∧ (rin g).IsSq nin ∧ (rout g).IsSq nout

theorem equivarianceErr_eq {d nin nout : ℕ} {rin rout : DMat ℝ → DMat ℝ} {X : DMat ℝ} {gs : List (DMat ℝ)} (hd : 0 < d) (hX : X.cols = nin) (h0 : 0 < X.rows) (hn : 0 < nout)
    (hg : BatchSamples d nin nout rin rout X.rows gs) {predict : DMat ℝ → Py (DMat ℝ)}
    (hp : ∀ X' P, X'.rows = X.rows → X'.cols = nin → predict X' = .ok P → P.rows = X.rows ∧ P.cols = nout) {v : Fl} (hv : equivarianceErr predict rin rout X gs = .ok v) :
    ∃ P P', predict X = .ok P ∧ predict (moveRows (sampleAt rin gs) X) = .ok P' ∧
      (v = none → ∀ g ∈ gs, g = DMat.one d) ∧ ∀ x, v = some x → 0 ≤ x ∧ x ≤ 1 ∧ (x = 0 ↔ P' = moveRows (sampleAt rout gs) P) := by
  have hmem : ∀ i < X.rows, gs.getD i (DMat.one 0) ∈ gs := by
    intro i hi
    rw [getD_eq_getElem _ _ (by rw [hg.len]; exact hi)]
    exact getElem_mem _
  have hact : ∀ (ρ : DMat ℝ → DMat ℝ) (m : ℕ) (Z : DMat ℝ), Z.cols = m → (∀ g ∈ gs, (ρ g).IsSq m) →
      DMat.of Z.rows (ρ (gs.getD 0 (DMat.one 0))).rows (fun i j => ((ρ (gs.getD i (DMat.one 0))).mulVec (Z.row i)).getD j 0) = moveRows (sampleAt ρ gs) Z := by
    intro ρ m Z hZ hρ
    rw [(hρ _ (hmem 0 h0)).1, ← hZ]
    rfl
  unfold equivarianceErr at hv
  dsimp only at hv
  rw [hact rin nin X hX fun g h => (hg.sq g h).2.1] at hv
  cases h1 : predict (moveRows (sampleAt rin gs) X) with
  | error e => rw [h1] at hv; cases hv
  | ok P' =>
    rw [h1] at hv
    cases h2 : predict X with
    | error e => rw [h2] at hv; cases hv
    | ok P =>
      rw [h2] at hv
      have hv : (Except.ok (scaleAdjustedRelErr P'.flat _ gs) : Py Fl) = .ok v := hv
      obtain ⟨r1, c1⟩ := hp X P rfl hX h2
      obtain ⟨r2, c2⟩ := hp (moveRows (sampleAt rin gs) X) P' rfl hX h1
      rw [hact rout nout P c1 fun g h => (hg.sq g h).2.2] at hv
      have hv := Except.ok.inj hv
      have hne : P'.flat ≠ [] := by
        intro h
        have := congrArg length h
        rw [DMat.length_flat, r2, c2, length_nil] at this
        exact (Nat.mul_pos h0 hn).ne' this
      have hme : minusEye gs ≠ [] := minusEye_ne (d := d) hd (by
        intro h
        have := hg.len
        rw [h, length_nil] at this
        omega) fun g h => (hg.sq g h).1
      have hlen : P'.flat.length = (moveRows (sampleAt rout gs) P).flat.length := by
        rw [DMat.length_flat, DMat.length_flat, r2, c2]
        show _ = P.rows * P.cols
        rw [r1, c1]
      have ht := C94_trainer hlen hne hme
      refine ⟨P, P', rfl, rfl, fun hvn => ?_, fun x hx => ?_⟩
      · have h3 := (ht.1.1 (hv.trans hvn)).2.2
        intro g hgg
        have hsq := (hg.sq g hgg).1
        refine DMat.ext hsq.1 hsq.2 fun i j hi hj => ?_
        have : g.e i j - (if i = j then 1 else 0) = 0 := h3 _ (by
          unfold minusEye
          exact mem_flatMap.2 ⟨g, hgg, mem_flatMap.2 ⟨i, by simpa using hi, mem_map.2 ⟨j, by simpa using hj, rfl⟩⟩⟩)
        rw [sub_eq_zero] at this
        rw [this, DMat.one, DMat.of_e (hsq.1 ▸ hi) (hsq.2 ▸ hj)]
      · obtain ⟨h3, h4, h5⟩ := ht.2 x (hv.trans hx)
        refine ⟨h3, h4, h5.trans ⟨fun h => ?_, fun h => by rw [h]⟩⟩
        exact DMat.flat_inj (r2.trans r1.symm) (c2.trans c1.symm) h

section
variable {Θ σ γ γ' : Type}

/-- **C125, the log.** Let the model be equivariant, for all its parameters, for the elements that are sampled.  Then every value that is logged as `test_equivar_err`,
at any time of any training run, is 0; or it is `nan`, which happens only if all elements sampled for some minibatch are the identity. -/
theorem C125_log {d nin nout : ℕ} (hd : 0 < d) (hn : 0 < nout) {T : TrainerObj Θ σ γ (DMat ℝ × γ')}
    (hnames : ∀ name, ∀ μ ∈ T.metrics, name ++ "_" ++ μ.1 ≠ "test_equivar_err") {predict : Θ → DMat ℝ → Py (DMat ℝ)} {rin rout : DMat ℝ → DMat ℝ}
    {samples : ℕ → ℕ → ℕ → List (DMat ℝ)} (hs : ∀ k i n, BatchSamples d nin nout rin rout n (samples k i n))
    (hdata : ∀ x ∈ T.loaders, x.1 = "test" → ∀ mb ∈ x.2.2, mb.1.cols = nin ∧ 0 < mb.1.rows)
    (hp : ∀ t X P, X.cols = nin → predict t X = .ok P → P.rows = X.rows ∧ P.cols = nout)
    (heq : ∀ t X k i, X.cols = nin → predict t (moveRows (sampleAt rin (samples k i X.rows)) X) = (predict t X).map (moveRows (sampleAt rout (samples k i X.rows))))
    {e : ℕ} {s : RunSt Θ σ} {calls : List (TrainCall × (ℕ → Bool))} {r : ℕ × RunSt Θ σ} (hr : (T.plus predict rin rout samples).run (e, s) calls = .ok r) :
    ∃ new, r.2.log = s.log ++ new ∧ ∀ row ∈ new, ∀ v, ("test_equivar_err", v) ∈ row.2 →
      v = some 0 ∨ v = none ∧ ∃ k i n, 0 < n ∧ ∀ g ∈ samples k i n, g = DMat.one d := by
  obtain ⟨new, h1, h2⟩ := run_log _ e s calls hr
  refine ⟨new, h1, fun row hrow v hv => ?_⟩
  rcases h2 row hrow with ⟨k, t, rows, h3, h4⟩ | ⟨t, h3⟩
  · have h3 : equivarLog predict rin rout samples T.loaders k t = .ok rows := h3
    unfold equivarLog at h3
    split at h3
    · cases h3
    · rename_i x hx
      cases hm : averageMetric none (everyFifth x.2.2).zipIdx fun b => equivarianceErr (predict t) rin rout b.1.1 (samples k b.2 b.1.1.rows) with
      | error e => rw [hm] at h3; cases h3
      | ok y =>
        rw [hm] at h3
        have h3 := Except.ok.inj h3
        rw [← h3, mem_singleton] at h4
        rw [h4, mem_singleton] at hv
        obtain rfl : v = y := (Prod.mk.inj hv).2
        have hx1 : x.1 = "test" := by simpa using find?_some hx
        have hd5 : ∀ b ∈ (everyFifth x.2.2).zipIdx, b.1.1.cols = nin ∧ 0 < b.1.1.rows := by
          intro b hb
          have hb : b.1 ∈ everyFifth x.2.2 := by
            have := mem_zipIdx hb
            rw [this.2.2]
            exact getElem_mem _
          obtain ⟨i, hi, hi'⟩ := mem_iff_getElem.1 hb
          have h5 := everyFifth_getElem? x.2.2 i
          rw [getElem?_eq_getElem hi, hi'] at h5
          exact hdata x (mem_of_find?_eq_some hx) hx1 _ (mem_of_getElem? h5.symm)
        obtain ⟨q1, q2, q3, q4⟩ := averageMetric_none hm
        have hone : ∀ b ∈ (everyFifth x.2.2).zipIdx, ∀ u, equivarianceErr (predict t) rin rout b.1.1 (samples k b.2 b.1.1.rows) = .ok u →
            (u = none → ∀ g ∈ samples k b.2 b.1.1.rows, g = DMat.one d) ∧ ∀ z, u = some z → z = 0 := by
          intro b hb u hu
          obtain ⟨c1, c2⟩ := hd5 b hb
          obtain ⟨P, P', p1, p2, p3, p4⟩ := equivarianceErr_eq hd c1 c2 hn (hs k b.2 _) (fun X' P hX' hX'' h => hX' ▸ hp t X' P hX'' h) hu
          refine ⟨p3, fun z hz => (p4 z hz).2.2.2 ?_⟩
          rw [heq t _ _ _ c1, p1] at p2
          exact (Except.ok.inj p2).symm
        cases v with
        | none =>
          obtain ⟨b, b1, b2⟩ := q3 rfl
          exact .inr ⟨rfl, k, b.2, _, (hd5 b b1).2, (hone b b1 _ b2).1 rfl⟩
        | some z =>
          obtain ⟨xs, w1, w2⟩ := q4 z rfl
          have : ∀ y ∈ xs, y = 0 := by
            intro y hy
            obtain ⟨i, hi, rfl⟩ := mem_iff_getElem.1 hy
            have hl := w1.length_eq
            have := (forall₂_iff_get.1 w1).2 i (by rw [hl]; exact hi) hi
            exact (hone _ (get_mem _ _) _ this).2 _ rfl
          rw [w2, sum_eq_zero this, zero_div]
          exact .inl rfl
  · exfalso
    have h3 : T.allMetrics t T.loaders = .ok row.2 := by
      rw [← h3]
      have hall : ∀ t L, (T.plus predict rin rout samples).allMetrics t L = T.allMetrics t L := by
        intro t L
        induction L with
        | nil => rfl
        | cons a L ih =>
          obtain ⟨name, bs, l⟩ := a
          rw [TrainerObj.allMetrics, TrainerObj.allMetrics, ih]
          rfl
      exact (hall t _).symm
    obtain ⟨name, μ, h5, h6⟩ := allMetrics_keys T t _ _ h3 _ hv
    exact hnames name μ h5 h6.symm

/-- **C125, what it detects.** Whatever the model, the value is between 0 and 1; and if it is 0, then the model commutes with the elements sampled, on the minibatches
number 0, 5, 10, ... of the test loader. -/
theorem C125_detects {d nin nout : ℕ} (hd : 0 < d) (hn : 0 < nout) {predict : Θ → DMat ℝ → Py (DMat ℝ)} {rin rout : DMat ℝ → DMat ℝ}
    {samples : ℕ → ℕ → ℕ → List (DMat ℝ)} (hs : ∀ k i n, BatchSamples d nin nout rin rout n (samples k i n))
    {loaders : List (String × Option ℕ × List (DMat ℝ × γ'))} {bs : Option ℕ} {test : List (DMat ℝ × γ')}
    (htest : loaders.find? (fun x => x.1 = "test") = some ("test", bs, test)) (hdata : ∀ mb ∈ test, mb.1.cols = nin ∧ 0 < mb.1.rows)
    {k : ℕ} {t : Θ} (hp : ∀ X P, X.cols = nin → predict t X = .ok P → P.rows = X.rows ∧ P.cols = nout) {v : ℝ}
    (h : equivarLog predict rin rout samples loaders k t = .ok [[("test_equivar_err", some v)]]) :
    0 ≤ v ∧ v ≤ 1 ∧ (v = 0 ↔ ∀ i mb, test[5 * i]? = some mb → ∃ P, predict t mb.1 = .ok P ∧
      predict t (moveRows (sampleAt rin (samples k i mb.1.rows)) mb.1) = .ok (moveRows (sampleAt rout (samples k i mb.1.rows)) P)) := by
  unfold equivarLog at h
  rw [htest] at h
  dsimp only at h
  cases hm : averageMetric none (everyFifth test).zipIdx fun b => equivarianceErr (predict t) rin rout b.1.1 (samples k b.2 b.1.1.rows) with
  | error e => rw [hm] at h; cases h
  | ok y =>
    rw [hm] at h
    have h := Except.ok.inj h
    obtain rfl : y = some v := by simpa using h
    obtain ⟨q1, q2, q3, q4⟩ := averageMetric_none hm
    obtain ⟨xs, w1, w2⟩ := q4 v rfl
    have hl := w1.length_eq
    rw [length_zipIdx] at hl
    have hone : ∀ i (hi : i < xs.length), ∃ mb, test[5 * i]? = some mb ∧ 0 ≤ xs[i] ∧ xs[i] ≤ 1 ∧ (xs[i] = 0 ↔ ∃ P, predict t mb.1 = .ok P ∧
        predict t (moveRows (sampleAt rin (samples k i mb.1.rows)) mb.1) = .ok (moveRows (sampleAt rout (samples k i mb.1.rows)) P)) := by
      intro i hi
      have h5 := everyFifth_getElem? test i
      rw [getElem?_eq_getElem (by rw [hl]; exact hi)] at h5
      refine ⟨_, h5.symm, ?_⟩
      have h6 := (forall₂_iff_get.1 w1).2 i (by rw [length_zipIdx, hl]; exact hi) hi
      simp only [get_eq_getElem, getElem_zipIdx, zero_add] at h6
      obtain ⟨c1, c2⟩ := hdata _ (mem_of_getElem? h5.symm)
      obtain ⟨P, P', p1, p2, p3, p4⟩ := equivarianceErr_eq hd c1 c2 hn (hs k i _) (fun X' P hX' hX'' h => hX' ▸ hp X' P hX'' h) h6
      obtain ⟨p5, p6, p7⟩ := p4 _ rfl
      refine ⟨p5, p6, p7.trans ⟨fun hh => ⟨P, p1, by rw [p2, hh]⟩, fun ⟨Q, q1, q2⟩ => ?_⟩⟩
      rw [p1] at q1
      rw [p2] at q2
      rw [Except.ok.inj q2, Except.ok.inj q1]
    have hpos : (0 : ℝ) < (everyFifth test).zipIdx.length := by
      exact_mod_cast length_pos_of_ne_nil q1
    have hnn : ∀ y ∈ xs, 0 ≤ y := by
      intro y hy
      obtain ⟨i, hi, rfl⟩ := mem_iff_getElem.1 hy
      obtain ⟨_, _, h, _⟩ := hone i hi
      exact h
    refine ⟨?_, ?_, ?_⟩
    · rw [w2]
      exact div_nonneg (sum_nonneg hnn) hpos.le
    · rw [w2, div_le_one hpos, length_zipIdx, hl]
      have : xs.sum ≤ xs.length • (1 : ℝ) := sum_le_card_nsmul xs 1 fun y hy => by
        obtain ⟨i, hi, rfl⟩ := mem_iff_getElem.1 hy
        obtain ⟨_, _, _, h, _⟩ := hone i hi
        exact h
      simpa using this
    · rw [w2, div_eq_zero_iff, or_iff_left hpos.ne']
      constructor
      · intro hsum i mb hmb
        have hz : ∀ y ∈ xs, y = 0 := all_zero_of_sum hnn hsum
        have hi : i < xs.length := by
          rw [← hl]
          have h5 := everyFifth_getElem? test i
          rw [hmb] at h5
          exact (List.getElem?_eq_some_iff.1 h5).1
        obtain ⟨mb', m1, _, _, m4⟩ := hone i hi
        obtain rfl : mb' = mb := Option.some.inj (m1.symm.trans hmb)
        exact m4.1 (hz _ (getElem_mem _))
      · intro hall
        refine sum_eq_zero fun y hy => ?_
        obtain ⟨i, hi, rfl⟩ := mem_iff_getElem.1 hy
        obtain ⟨mb, m1, _, _, m4⟩ := hone i hi
        exact m4.2 (hall i mb m1)

/-- **C125, no test data.** Without a loader `test`, or with an empty one, the first log raises `KeyError`. -/
theorem C125_missing {T : TrainerObj Θ σ γ (DMat ℝ × γ')} (predict : Θ → DMat ℝ → Py (DMat ℝ)) (rin rout : DMat ℝ → DMat ℝ) (samples : ℕ → ℕ → ℕ → List (DMat ℝ))
    (h : ∀ x ∈ T.loaders, x.1 = "test" → x.2.2 = []) (s : RunSt Θ σ) (step : ℕ) : (T.plus predict rin rout samples).exec s (.log step) = .error .key := by
  have : equivarLog predict rin rout samples T.loaders s.log.length s.params = .error .key := by
    unfold equivarLog
    cases hx : T.loaders.find? (fun x => x.1 = "test") with
    | none => rfl
    | some x =>
      have hx1 : x.1 = "test" := by simpa using find?_some hx
      dsimp only
      rw [h x (mem_of_find?_eq_some hx) hx1]
      simp [everyFifth, averageMetric, bind, Except.bind, pure, Except.pure]
  simp only [TrainerObj.exec]
  show (equivarLog predict rin rout samples T.loaders s.log.length s.params >>= _) = _
  rw [this]
  rfl

end

/-! ### `Standardize` on batches -/

theorem Stat.opRows_rows {n : ℕ} {s : Stat} (hs : s.Fits n) (f : ℝ → ℝ → ℝ) {X : DMat ℝ} (hX : X.cols = n) :
    ∃ Y, s.opRows f X = .ok Y ∧ Y.rows = X.rows ∧ Y.cols = n ∧ ∀ i < X.rows, s.op f (X.row i) = .ok (Y.row i) := by
  have e : s.opRows f X = .ok (DMat.of X.rows X.cols fun i j => f (X.e i j) ((s.vec n).getD j 0)) := by
    have hrep : ∀ r : ℝ, DMat.of X.rows X.cols (fun i j => f (X.e i j) r) = DMat.of X.rows X.cols fun i j => f (X.e i j) ((replicate n r).getD j 0) := by
      intro r
      refine DMat.ext rfl rfl fun i j hi hj => ?_
      have hj' : j < n := hX ▸ hj
      rw [DMat.of_e (m := X.rows) (n := X.cols) hi hj, DMat.of_e (m := X.rows) (n := X.cols) hi hj, getD_eq_getElem _ _ (by simpa using hj'), getElem_replicate]
    cases s with
    | num r => exact congrArg Except.ok (hrep r)
    | arr l =>
      unfold Stat.opRows Stat.vec
      dsimp only
      by_cases h : l.length = n
      · rw [if_pos (h.trans hX.symm), if_pos h]
      · rw [if_neg (fun h' => h (h'.trans hX)), if_pos (hs.resolve_left h), if_neg h, hrep]
  refine ⟨_, e, rfl, hX, fun i hi => ?_⟩
  rw [Stat.op_eq hs f (by rw [DMat.length_row, hX])]
  congr 1
  refine DMat.vec_ext (by simp [DMat.of, hX, Stat.length_vec]) fun j hj => ?_
  have hj' : j < n := by simpa [hX, Stat.length_vec] using hj
  rw [getD_zipWith' _ (by rw [DMat.length_row, hX, Stat.length_vec]) (by rw [DMat.length_row, hX]; exact hj'), DMat.getD_row, DMat.getD_row, DMat.of_e hi (hX ▸ hj')]

theorem normalize_rows {n : ℕ} {muin sin : Stat} (hm : muin.Fits n) (hs : sin.Fits n) {X : DMat ℝ} (hX : X.cols = n) :
    ∃ V, (muin.opRows (· - ·) X >>= fun u => sin.opRows (· / ·) u) = .ok V ∧ V.rows = X.rows ∧ V.cols = n ∧
      ∀ i < X.rows, (muin.op (· - ·) (X.row i) >>= fun u => sin.op (· / ·) u) = .ok (V.row i) := by
  obtain ⟨U, u1, u2, u3, u4⟩ := Stat.opRows_rows hm (· - ·) hX
  obtain ⟨V, v1, v2, v3, v4⟩ := Stat.opRows_rows hs (· / ·) u3
  refine ⟨V, by rw [u1]; exact v1, v2.trans u2, v3, fun i hi => ?_⟩
  rw [u4 i hi]
  exact v4 i (u2 ▸ hi)

theorem denormalize_rows {m : ℕ} {muout sout : Stat} (hm : muout.Fits m) (hs : sout.Fits m) {Y : DMat ℝ} (hY : Y.cols = m) :
    ∃ V, (sout.opRows (· * ·) Y >>= fun z => muout.opRows (· + ·) z) = .ok V ∧ V.rows = Y.rows ∧ V.cols = m ∧
      ∀ i < Y.rows, (sout.op (· * ·) (Y.row i) >>= fun z => muout.op (· + ·) z) = .ok (V.row i) := by
  obtain ⟨U, u1, u2, u3, u4⟩ := Stat.opRows_rows hs (· * ·) hY
  obtain ⟨V, v1, v2, v3, v4⟩ := Stat.opRows_rows hm (· + ·) u3
  refine ⟨V, by rw [u1]; exact v1, v2.trans u2, v3, fun i hi => ?_⟩
  rw [u4 i hi]
  exact v4 i (u2 ▸ hi)

theorem standardizeBatch_two (model : DMat ℝ → Py (DMat ℝ)) (muin sin : Stat) (X : DMat ℝ) :
    standardizeBatch model [muin, sin] X = ((muin.opRows (· - ·) X >>= fun u => sin.opRows (· / ·) u) >>= model) := by
  show (muin.opRows (· - ·) X >>= fun u => sin.opRows (· / ·) u >>= model) = _
  cases muin.opRows (· - ·) X <;> rfl

theorem standardizeBatch_four (model : DMat ℝ → Py (DMat ℝ)) (muin sin muout sout : Stat) (X : DMat ℝ) :
    standardizeBatch model [muin, sin, muout, sout] X = (standardizeBatch model [muin, sin] X >>= fun y => sout.opRows (· * ·) y >>= fun z => muout.opRows (· + ·) z) := by
  show (muin.opRows (· - ·) X >>= fun u => sin.opRows (· / ·) u >>= fun v => model v >>= fun y => sout.opRows (· * ·) y >>= fun z => muout.opRows (· + ·) z) = _
  show _ = ((muin.opRows (· - ·) X >>= fun u => sin.opRows (· / ·) u >>= model) >>= _)
  cases muin.opRows (· - ·) X with
  | error e => rfl
  | ok u =>
    show (sin.opRows (· / ·) u >>= _) = ((sin.opRows (· / ·) u >>= model) >>= _)
    cases sin.opRows (· / ·) u <;> rfl

/-- `Standardize` treats the rows of a batch separately: on each it is the function of C43. -/
theorem C125_rows {n m : ℕ} {model : DMat ℝ → Py (DMat ℝ)} {f : List ℝ → Py (List ℝ)}
    (hmod : ∀ V P, V.cols = n → model V = .ok P → P.rows = V.rows ∧ P.cols = m ∧ ∀ i < V.rows, f (V.row i) = .ok (P.row i))
    {muin sin muout sout : Stat} (h1 : muin.Fits n) (h2 : sin.Fits n) (h3 : muout.Fits m) (h4 : sout.Fits m) {X Q : DMat ℝ} (hX : X.cols = n) :
    (standardizeBatch model [muin, sin] X = .ok Q → Q.rows = X.rows ∧ Q.cols = m ∧ ∀ i < X.rows, standardize ⟨true, f⟩ [muin, sin] (X.row i) = .ok (Q.row i)) ∧
    (standardizeBatch model [muin, sin, muout, sout] X = .ok Q → Q.rows = X.rows ∧ Q.cols = m ∧
      ∀ i < X.rows, standardize ⟨true, f⟩ [muin, sin, muout, sout] (X.row i) = .ok (Q.row i)) := by
  obtain ⟨V, v1, v2, v3, v4⟩ := normalize_rows h1 h2 hX
  have two : ∀ Q, standardizeBatch model [muin, sin] X = .ok Q → Q.rows = X.rows ∧ Q.cols = m ∧ ∀ i < X.rows, standardize ⟨true, f⟩ [muin, sin] (X.row i) = .ok (Q.row i) := by
    intro Q hQ
    rw [standardizeBatch_two, v1] at hQ
    obtain ⟨p1, p2, p3⟩ := hmod V Q v3 hQ
    refine ⟨p1.trans v2, p2, fun i hi => ?_⟩
    have : standardize ⟨true, f⟩ [muin, sin] (X.row i) = ((muin.op (· - ·) (X.row i) >>= fun u => sin.op (· / ·) u) >>= f) := by
      show (muin.op (· - ·) (X.row i) >>= fun u => sin.op (· / ·) u >>= f) = _
      cases muin.op (· - ·) (X.row i) <;> rfl
    rw [this, v4 i hi]
    exact p3 i (v2 ▸ hi)
  refine ⟨two Q, fun hQ => ?_⟩
  rw [standardizeBatch_four] at hQ
  cases hP : standardizeBatch model [muin, sin] X with
  | error e => rw [hP] at hQ; cases hQ
  | ok P =>
    rw [hP] at hQ
    obtain ⟨p1, p2, p3⟩ := two P hP
    obtain ⟨Q', q1, q2, q3, q4⟩ := denormalize_rows h3 h4 p2
    have hQ : (sout.opRows (· * ·) P >>= fun z => muout.opRows (· + ·) z) = .ok Q := hQ
    obtain rfl : Q' = Q := Except.ok.inj (q1.symm.trans hQ)
    refine ⟨q2.trans p1, q3, fun i hi => ?_⟩
    have e : standardize ⟨true, f⟩ [muin, sin, muout, sout] (X.row i) =
        (standardize ⟨true, f⟩ [muin, sin] (X.row i) >>= fun y => sout.op (· * ·) y >>= fun z => muout.op (· + ·) z) := by
      show (muin.op (· - ·) (X.row i) >>= fun u => sin.op (· / ·) u >>= fun v => f v >>= fun y => sout.op (· * ·) y >>= fun z => muout.op (· + ·) z) = 
        ((muin.op (· - ·) (X.row i) >>= fun u => sin.op (· / ·) u >>= f) >>= _)
      cases muin.op (· - ·) (X.row i) with
      | error e => rfl
      | ok u =>
        show (sin.op (· / ·) u >>= _) = ((sin.op (· / ·) u >>= f) >>= _)
        cases sin.op (· / ·) u <;> rfl
    rw [e, p3 i hi]
    exact q4 i (p1 ▸ hi)

/-- **C125, `Standardize`.** A model that maps moved batches to moved predictions still does inside `Standardize`, if the shifts are fixed by the matrices and the scales
constant on the coordinates they mix. -/
theorem C125_standardize {n m : ℕ} {model : DMat ℝ → Py (DMat ℝ)} {A B : ℕ → DMat ℝ} {X : DMat ℝ} (hX : X.cols = n)
    (hmod : ∀ V, V.rows = X.rows → V.cols = n → model (moveRows A V) = (model V).map (moveRows B)) {muin sin : Stat} (hf1 : muin.Fits n) (hf2 : sin.Fits n)
    (hA : ∀ i < X.rows, (A i).IsSq n ∧ muin.Invariant n (A i) ∧ sin.Constant n (A i)) :
    standardizeBatch model [muin, sin] (moveRows A X) = (standardizeBatch model [muin, sin] X).map (moveRows B) ∧
    ∀ muout sout : Stat, muout.Fits m → sout.Fits m → (∀ i < X.rows, (B i).IsSq m ∧ muout.Invariant m (B i) ∧ sout.Constant m (B i)) →
      (∀ V P, V.rows = X.rows → V.cols = n → model V = .ok P → P.rows = X.rows ∧ P.cols = m) →
      standardizeBatch model [muin, sin, muout, sout] (moveRows A X) = (standardizeBatch model [muin, sin, muout, sout] X).map (moveRows B) := by
  obtain ⟨V, v1, v2, v3, v4⟩ := normalize_rows hf1 hf2 hX
  obtain ⟨V', w1, w2, w3, w4⟩ := normalize_rows hf1 hf2 (X := moveRows A X) hX
  have hV : V' = moveRows A V := by
    refine eq_moveRows (w2.trans v2.symm) (w3.trans v3.symm) fun i hi => ?_
    rw [v2] at hi
    obtain ⟨a1, a2, a3⟩ := hA i hi
    obtain ⟨v, -, e1, e2⟩ := normalize_comm a1 a2 a3 (x := X.row i) (by rw [DMat.length_row, hX])
    have h1 := w4 i hi
    rw [moveRows_row _ _ hi (a1.1.trans hX.symm)] at h1
    rw [← Except.ok.inj (e2.symm.trans h1), Except.ok.inj (e1.symm.trans (v4 i hi))]
  have two : standardizeBatch model [muin, sin] (moveRows A X) = (standardizeBatch model [muin, sin] X).map (moveRows B) := by
    rw [standardizeBatch_two, standardizeBatch_two, v1, w1, hV]
    exact hmod V v2 v3
  refine ⟨two, fun muout sout hf3 hf4 hB hshape => ?_⟩
  rw [standardizeBatch_four, standardizeBatch_four, two]
  cases hP : standardizeBatch model [muin, sin] X with
  | error e => rfl
  | ok P =>
    rw [standardizeBatch_two, v1] at hP
    obtain ⟨p1, p2⟩ := hshape V P v2 v3 hP
    obtain ⟨Q, q1, q2, q3, q4⟩ := denormalize_rows hf3 hf4 p2
    obtain ⟨Q', r1, r2, r3, r4⟩ := denormalize_rows hf3 hf4 (Y := moveRows B P) p2
    show (sout.opRows (· * ·) (moveRows B P) >>= fun z => muout.opRows (· + ·) z) = (sout.opRows (· * ·) P >>= fun z => muout.opRows (· + ·) z).map (moveRows B)
    rw [q1, r1]
    refine congrArg Except.ok (eq_moveRows (r2.trans q2.symm) (r3.trans q3.symm) fun i hi => ?_)
    rw [q2] at hi
    obtain ⟨a1, a2, a3⟩ := hB i (p1 ▸ hi)
    obtain ⟨v, -, e1, e2⟩ := denormalize_comm a1 a2 a3 (y := P.row i) (by rw [DMat.length_row, p2])
    have h1 := r4 i hi
    rw [moveRows_row _ _ hi (a1.1.trans p2.symm)] at h1
    rw [← Except.ok.inj (e2.symm.trans h1), Except.ok.inj (e1.symm.trans (q4 i hi))]

theorem moveRows_congr {A A' : ℕ → DMat ℝ} {X : DMat ℝ} (h : ∀ i < X.rows, A i = A' i) : moveRows A X = moveRows A' X := by
  refine DMat.ext rfl rfl fun i j hi hj => ?_
  have hi' : i < X.rows := hi
  have hj' : j < X.cols := hj
  rw [moveRows, moveRows, DMat.of_e hi' hj', DMat.of_e hi' hj', h i hi']

section
variable {W : World} {g : Gid} {N : ℕ} {custom : ∀ k g, AtomRep ℝ (W.d g) (W.usize k g)}
  {lie disc : ∀ g, List (Matrix (Fin (W.d g)) (Fin (W.d g)) ℝ)} {solve : ℕ → LinOp ℝ → Py (DMat ℝ)} {rng : Rng} {σ σ' : NetSt ℝ}
  {ein eout : Expr} {rin rout : Rep} {fuel b L : ℕ} {ch : Ch} {ws : List ℕ} {E : Emlp ℝ} {Θ τ γ : Type}

/-- The statistics of a dataset respect the group: the shifts are fixed, the scales constant on the coordinates it mixes. -/
def StatsOK (W : World) (custom : ∀ k g, AtomRep ℝ (W.d g) (W.usize k g)) (lie disc : ∀ g, List (Matrix (Fin (W.d g)) (Fin (W.d g)) ℝ)) (g : Gid) (e : Expr)
    (mu s : Stat) : Prop :=
  mu.Fits (e.dim W g) ∧ s.Fits (e.dim W g) ∧ ∀ h, Generated (lie g) (disc g) h →
    mu.Invariant (e.dim W g) (e.den g (Interp.elem W custom g h)).1 ∧ s.Constant (e.dim W g) (e.den g (Interp.elem W custom g h)).1

/-- Batches of moved inputs through `Standardize(EMLP(...),stats)`. -/
theorem standardized_moved (hW : W.SingleOK g N) (hd : 2 ≤ W.d g) (hdN : W.d g ≤ N) (ok : GroupsOK W custom lie disc)
    (hsol : SolverOK W (gensOf W (stdAtoms W custom) lie disc) solve) (hσ : NetReach W g (gensOf W (stdAtoms W custom) lie disc) solve σ)
    (hrng : RngOK rng) (hin : RepArg W g N ein rin) (hout : RepArg W g N eout rout) (hch : ch.Widths W g N b L ws)
    (hbi : ein.dim W g ≤ b) (hbo : eout.dim W g ≤ b) (hbf : b < fuel) (hN : (2 * b) * (2 * b) ≤ N)
    (hE : FrontEnd.objax.emlp W (gensOf W (stdAtoms W custom) lie disc) solve rng fuel rin rout g ch L σ = .ok (E, σ')) (c : ℝ) (act : ℝ → ℝ)
    {ps0 : List (BlockParams ℝ)} {w0 : DMat ℝ} {β0 : List ℝ} (hp0 : E.Shaped ps0 w0 β0) {X0 P0 : DMat ℝ} (h0 : FrontEnd.objax.apply W c act E ps0 w0 β0 X0 = .ok P0)
    {ps : List (BlockParams ℝ)} {w : DMat ℝ} {β : List ℝ} (hp : E.Shaped ps w β) {muin sin muout sout : Stat}
    (hs1 : StatsOK W custom lie disc g ein muin sin) (hs2 : StatsOK W custom lie disc g eout muout sout) {X : DMat ℝ} (hX : X.cols = ein.dim W g) :
    (∃ P, standardizeBatch (FrontEnd.objax.apply W c act E ps w β) [muin, sin, muout, sout] X = .ok P ∧ P.rows = X.rows ∧ P.cols = eout.dim W g ∧
      ∀ i < X.rows, standardize ⟨true, E.apply W c act ps w β⟩ [muin, sin, muout, sout] (X.row i) = .ok (P.row i)) ∧
    ∀ h : ℕ → Matrix (Fin (W.d g)) (Fin (W.d g)) ℝ, (∀ i, Generated (lie g) (disc g) (h i)) →
      standardizeBatch (FrontEnd.objax.apply W c act E ps w β) [muin, sin, muout, sout] (moveRows (fun i => (ein.den g (Interp.elem W custom g (h i))).1) X) =
        (standardizeBatch (FrontEnd.objax.apply W c act E ps w β) [muin, sin, muout, sout] X).map (moveRows fun i => (eout.den g (Interp.elem W custom g (h i))).1) := by
  have hret := emlp_returns hW hd hdN ok hsol hσ hrng hin hout hch hbi hbo hbf hN .objax hE c act hp0 h0 hp
  obtain ⟨a1, a2, a3⟩ := hs1
  obtain ⟨b1, b2, b3⟩ := hs2
  have hshape : ∀ V P, V.cols = ein.dim W g → FrontEnd.objax.apply W c act E ps w β V = .ok P →
      P.rows = V.rows ∧ P.cols = eout.dim W g ∧ ∀ i < V.rows, E.apply W c act ps w β (V.row i) = .ok (P.row i) := by
    intro V P hV hP
    obtain ⟨P', e1, e2, e3, e4⟩ := hret V hV
    rw [hP] at e1
    cases e1
    exact ⟨e2, e3, e4⟩
  constructor
  · obtain ⟨V, v1, v2, v3, v4⟩ := normalize_rows a1 a2 hX
    obtain ⟨P, e1, e2, e3, e4⟩ := hret V v3
    obtain ⟨Q, q1, q2, q3, q4⟩ := denormalize_rows b1 b2 e3
    have hQ : standardizeBatch (FrontEnd.objax.apply W c act E ps w β) [muin, sin, muout, sout] X = .ok Q := by
      rw [standardizeBatch_four, standardizeBatch_two, v1]
      show (FrontEnd.objax.apply W c act E ps w β V >>= _) = _
      rw [e1]
      exact q1
    obtain ⟨r1, r2, r3⟩ := (C125_rows hshape a1 a2 b1 b2 (Q := Q) hX).2 hQ
    exact ⟨Q, hQ, r1, r2, r3⟩
  · intro h hg
    have hI := fun i => elem_dual (g := g) ok (hg i)
    exact (C125_standardize hX (fun V hV hV' => emlp_moved hW hd hdN ok hsol hσ hrng hin hout hch hbi hbo hbf hN .objax hE c act hp0 h0 hp hV' hg) a1 a2
      fun i _ => ⟨(ein.den_pair (hI i)).1, a3 _ (hg i)⟩).2 muout sout b1 b2 (fun i _ => ⟨(eout.den_pair (hI i)).1, b3 _ (hg i)⟩)
      fun V P hV hV' hP => by
        obtain ⟨p1, p2, -⟩ := hshape V P hV' hP
        exact ⟨p1.trans hV, p2⟩

/-- **C125, networks.** `RegressorPlus` on `Standardize(EMLP(...),stats)`, as the experiments build it, with statistics that respect the group.  Whatever happens in
training, the logged `test_equivar_err` is 0 (or `nan`, if all elements sampled for a minibatch are the identity): in exact arithmetic, since a value above 0 is the effect of
rounding. -/
theorem C125_network (hW : W.SingleOK g N) (hd : 2 ≤ W.d g) (hdN : W.d g ≤ N) (ok : GroupsOK W custom lie disc)
    (hsol : SolverOK W (gensOf W (stdAtoms W custom) lie disc) solve) (hσ : NetReach W g (gensOf W (stdAtoms W custom) lie disc) solve σ)
    (hrng : RngOK rng) (hin : RepArg W g N ein rin) (hout : RepArg W g N eout rout) (hch : ch.Widths W g N b L ws)
    (hbi : ein.dim W g ≤ b) (hbo : eout.dim W g ≤ b) (hbf : b < fuel) (hN : (2 * b) * (2 * b) ≤ N) (ho0 : 0 < eout.dim W g)
    (hE : FrontEnd.objax.emlp W (gensOf W (stdAtoms W custom) lie disc) solve rng fuel rin rout g ch L σ = .ok (E, σ')) (c : ℝ) (act : ℝ → ℝ)
    {ps : Θ → List (BlockParams ℝ)} {w : Θ → DMat ℝ} {β : Θ → List ℝ} (hp : ∀ t, E.Shaped (ps t) (w t) (β t))
    {t0 : Θ} {X0 P0 : DMat ℝ} (h0 : FrontEnd.objax.apply W c act E (ps t0) (w t0) (β t0) X0 = .ok P0) {muin sin muout sout : Stat}
    (hs1 : StatsOK W custom lie disc g ein muin sin) (hs2 : StatsOK W custom lie disc g eout muout sout)
    {model : Θ → DMat ℝ → Py (DMat ℝ)} (hmodel : ∀ t, model t = standardizeBatch (FrontEnd.objax.apply W c act E (ps t) (w t) (β t)) [muin, sin, muout, sout])
    (learner : Learner Θ τ γ) (lrSched : ℝ → ℝ) (S : ℕ) (batches : ℕ → ℕ → DMat ℝ × DMat ℝ) {loaders : List (String × Option ℕ × List (DMat ℝ × DMat ℝ))}
    (hdata : ∀ x ∈ loaders, x.1 = "test" → ∀ mb ∈ x.2.2, mb.1.cols = ein.dim W g ∧ 0 < mb.1.rows)
    {samples : ℕ → ℕ → ℕ → List (Matrix (Fin (W.d g)) (Fin (W.d g)) ℝ)} (hlen : ∀ k i n, (samples k i n).length = n)
    (hgen : ∀ k i n, ∀ h ∈ samples k i n, Generated (lie g) (disc g) h)
    {e : ℕ} {s : RunSt Θ τ} {calls : List (TrainCall × (ℕ → Bool))} {r : ℕ × RunSt Θ τ}
    (hr : ((regressor learner lrSched model S batches loaders).plus model (rhoDense W custom g ein) (rhoDense W custom g eout)
      fun k i n => (samples k i n).map DMat.ofMatrix).run (e, s) calls = .ok r) :
    ∃ new, r.2.log = s.log ++ new ∧ ∀ row ∈ new, ∀ v, ("test_equivar_err", v) ∈ row.2 →
      v = some 0 ∨ v = none ∧ ∃ k i n, 0 < n ∧ ∀ h ∈ samples k i n, h = 1 := by
  have ee : ∀ M : Matrix (Fin (W.d g)) (Fin (W.d g)) ℝ, (Matrix.of fun i j : Fin (W.d g) => (DMat.ofMatrix M).e i j) = M := by
    intro M
    ext i j
    rw [Matrix.of_apply, DMat.ofMatrix_e]
  have hsam : ∀ (x : Expr) k i n, ∀ j < n, sampleAt (rhoDense W custom g x) ((samples k i n).map DMat.ofMatrix) j =
      (x.den g (Interp.elem W custom g ((samples k i n).getD j 1))).1 := by
    intro x k i n j hj
    unfold sampleAt
    rw [getD_eq_getElem _ _ (by rw [length_map, hlen]; exact hj), getElem_map, rhoDense, ee, getD_eq_getElem _ _ (by rw [hlen]; exact hj)]
  have hgen' : ∀ k i n j, Generated (lie g) (disc g) ((samples k i n).getD j 1) := by
    intro k i n j
    by_cases hj : j < (samples k i n).length
    · rw [getD_eq_getElem _ _ hj]
      exact hgen _ _ _ _ (getElem_mem _)
    · rw [getD_eq_default _ _ (not_lt.1 hj)]
      exact .one
  have hst := fun t X => standardized_moved hW hd hdN ok hsol hσ hrng hin hout hch hbi hbo hbf hN hE c act (hp t0) h0 (hp t) hs1 hs2 (X := X)
  have := C125_log (d := W.d g) (nin := ein.dim W g) (nout := eout.dim W g) (by omega) ho0 (T := regressor learner lrSched model S batches loaders)
    (fun name μ hμ => by
      obtain rfl : μ = ("MSE", regressorLoss model) := by simpa [regressor] using hμ
      exact (C125_names name).1)
    (predict := model) (rin := rhoDense W custom g ein) (rout := rhoDense W custom g eout) (samples := fun k i n => (samples k i n).map DMat.ofMatrix)
    (fun k i n => ⟨by rw [length_map, hlen], fun M hM => by
      obtain ⟨h, hh, rfl⟩ := mem_map.1 hM
      have hI := elem_dual (g := g) ok (hgen _ _ _ _ hh)
      rw [rhoDense, rhoDense, ee]
      exact ⟨⟨rfl, rfl⟩, (ein.den_pair hI).sq1, (eout.den_pair hI).sq1⟩⟩)
    hdata
    (fun t X P hX hP => by
      obtain ⟨P', e1, e2, e3, -⟩ := (hst t X hX).1
      rw [hmodel, e1] at hP
      cases hP
      exact ⟨e2, e3⟩)
    (fun t X k i hX => by
      obtain ⟨P, e1, e2, e3, -⟩ := (hst t X hX).1
      rw [moveRows_congr (hsam ein k i X.rows), hmodel, (hst t X hX).2 _ (hgen' k i X.rows), e1]
      exact congrArg Except.ok (moveRows_congr fun j hj => (hsam eout k i X.rows j (e2 ▸ hj)).symm))
    hr
  obtain ⟨new, h1, h2⟩ := this
  refine ⟨new, h1, fun row hrow v hv => ?_⟩
  rcases h2 row hrow v hv with h3 | ⟨h3, k, i, n, hn, h4⟩
  · exact .inl h3
  · refine .inr ⟨h3, k, i, n, hn, fun h hh => ?_⟩
    have := h4 _ (mem_map_of_mem hh)
    rw [← ee h, this]
    ext a b
    rw [Matrix.of_apply, DMat.one, DMat.of_e a.2 b.2, Matrix.one_apply]
    simp [Fin.ext_iff]

/-- **C121 for `Standardize`.** With statistics that respect the group, training `Standardize(EMLP(...),stats)` on moved data gives the same parameters, optimizer states and
logged metrics. -/
theorem C125_moved (hW : W.SingleOK g N) (hd : 2 ≤ W.d g) (hdN : W.d g ≤ N) (ok : GroupsOK W custom lie disc)
    (hsol : SolverOK W (gensOf W (stdAtoms W custom) lie disc) solve) (hσ : NetReach W g (gensOf W (stdAtoms W custom) lie disc) solve σ)
    (hrng : RngOK rng) (hin : RepArg W g N ein rin) (hout : RepArg W g N eout rout) (hch : ch.Widths W g N b L ws)
    (hbi : ein.dim W g ≤ b) (hbo : eout.dim W g ≤ b) (hbf : b < fuel) (hN : (2 * b) * (2 * b) ≤ N)
    (hE : FrontEnd.objax.emlp W (gensOf W (stdAtoms W custom) lie disc) solve rng fuel rin rout g ch L σ = .ok (E, σ')) (c : ℝ) (act : ℝ → ℝ)
    (horth : OrthogonalRep W custom lie disc g eout)
    {ps : Θ → List (BlockParams ℝ)} {w : Θ → DMat ℝ} {β : Θ → List ℝ} (hp : ∀ t, E.Shaped (ps t) (w t) (β t))
    {t0 : Θ} {X0 P0 : DMat ℝ} (h0 : FrontEnd.objax.apply W c act E (ps t0) (w t0) (β t0) X0 = .ok P0) {muin sin muout sout : Stat}
    (hs1 : StatsOK W custom lie disc g ein muin sin) (hs2 : StatsOK W custom lie disc g eout muout sout)
    {model : Θ → DMat ℝ → Py (DMat ℝ)} (hmodel : ∀ t, model t = standardizeBatch (FrontEnd.objax.apply W c act E (ps t) (w t) (β t)) [muin, sin, muout, sout])
    (learner : Learner Θ τ γ) (lrSched : ℝ → ℝ) {S : ℕ} {batches batches' : ℕ → ℕ → DMat ℝ × DMat ℝ}
    (hb : ∀ e i, i < S → MovedBatch W custom lie disc g ein eout (batches e i) (batches' e i))
    {loaders loaders' : List (String × Option ℕ × List (DMat ℝ × DMat ℝ))} (hl : MovedLoaders (MovedBatch W custom lie disc g ein eout) loaders loaders')
    (s : ℕ × RunSt Θ τ) (calls : List (TrainCall × (ℕ → Bool))) :
    (regressor learner lrSched model S batches' loaders').run s calls = (regressor learner lrSched model S batches loaders).run s calls := by
  refine C121_training (R := MovedBatch W custom lie disc g ein eout) (n := eout.dim W g) learner lrSched ?_ hb hl s calls
  rintro ⟨X, Y⟩ mb' ⟨h1, h2, h3, h, hg, rfl⟩
  dsimp only at h1 h2 h3
  have hst := fun t => standardized_moved hW hd hdN ok hsol hσ hrng hin hout hch hbi hbo hbf hN hE c act (hp t0) h0 (hp t) hs1 hs2 h1
  have hI := fun i => elem_dual (g := g) ok (hg i)
  refine ⟨h2, h3, fun t P hP => ?_, _, _, rfl, fun t => ?_, fun i _ => ⟨(eout.den_pair (hI i)).1, horth _ (hg i)⟩⟩
  · obtain ⟨P', e1, e2, e3, -⟩ := (hst t).1
    dsimp only at hP
    rw [hmodel, e1] at hP
    cases hP
    exact ⟨e2, e3⟩
  · dsimp only
    rw [hmodel]
    exact (hst t).2 h hg

end

/-! Cases.  Plain statistics (`0,1,0,1`, as `C43_datasets` uses) respect every group; the model that multiplies by the parameter is equivariant, for the samples "quarter turn",
and its trainer runs. -/

example {W : World} {custom : ∀ k g, AtomRep ℝ (W.d g) (W.usize k g)} {lie disc : ∀ g, List (Matrix (Fin (W.d g)) (Fin (W.d g)) ℝ)} (ok : GroupsOK W custom lie disc) (g : Gid)
    (e : Expr) : StatsOK W custom lie disc g e (.num 0) (.num 1) := by
  refine ⟨trivial, trivial, fun h hg => ⟨⟨trivial, ?_⟩, trivial, fun i hi j hj _ => ?_⟩⟩
  · have := (e.den_pair (g := g) (elem_dual (g := g) ok hg)).sq1
    show DMat.mulVec _ (replicate _ 0) = replicate _ 0
    rw [DMat.mulVec_replicate_zero, this.1]
  · show (replicate _ (1 : ℝ)).getD i 0 = (replicate _ (1 : ℝ)).getD j 0
    rw [getD_eq_getElem _ _ (by simpa using hi), getD_eq_getElem _ _ (by simpa using hj), getElem_replicate, getElem_replicate]

/-- An optimizer that adds the learning rate. -/
def drift : Learner ℝ Unit ℝ := ⟨fun _ _ => .ok (0, some 0), fun lr _ s => (s.1, s.2 + lr)⟩

example : (∀ k i n, BatchSamples 2 2 2 id id n ((fun _ _ n => replicate n quarterTurn : ℕ → ℕ → ℕ → List (DMat ℝ)) k i n)) ∧
    (∀ (t : ℝ) X P, X.cols = 2 → scaleModel t X = .ok P → P.rows = X.rows ∧ P.cols = 2) ∧
    (∀ (t : ℝ) X, X.cols = 2 → scaleModel t (moveRows (sampleAt id (replicate X.rows quarterTurn)) X) =
      (scaleModel t X).map (moveRows (sampleAt id (replicate X.rows quarterTurn)))) ∧
    ∃ r, ((regressor drift (fun _ => 1) scaleModel 1 (fun _ _ => (DMat.of 1 2 fun _ _ => 1, DMat.of 1 2 fun _ _ => 1))
      [("test", some 1, [(DMat.of 1 2 fun _ _ => 1, DMat.of 1 2 fun _ _ => 1)])]).plus scaleModel id id (fun _ _ n => replicate n quarterTurn)).run (0, ⟨(), 2, []⟩)
      [(.train 1, fun _ => true)] = .ok r := by
  refine ⟨fun k i n => ⟨length_replicate, fun g hg => ?_⟩, fun t X P hX hP => ?_, fun t X hX => ?_, ?_⟩
  · rw [eq_of_mem_replicate hg]
    exact ⟨⟨rfl, rfl⟩, ⟨rfl, rfl⟩, ⟨rfl, rfl⟩⟩
  · cases hP
    exact ⟨rfl, hX⟩
  · refine congrArg Except.ok (eq_moveRows rfl rfl fun i hi => ?_)
    have hi : i < X.rows := hi
    have hq : sampleAt id (replicate X.rows quarterTurn) i = quarterTurn := by
      unfold sampleAt
      rw [getD_eq_getElem _ _ (by simpa using hi), getElem_replicate]
      rfl
    have h1 := moveRows_row (sampleAt id (replicate X.rows quarterTurn)) X hi (by rw [hq, hX]; rfl)
    have h2 : ∀ Z : DMat ℝ, i < Z.rows → (DMat.of Z.rows Z.cols fun i j => t * Z.e i j).row i = (Z.row i).map (t * ·) := by
      intro Z hZ
      refine DMat.vec_ext (by simp [DMat.of]) fun j hj => ?_
      have hj : j < Z.cols := by simpa [DMat.of] using hj
      rw [DMat.getD_row, DMat.of_e hZ hj, getD_eq_getElem _ _ (by simpa using hj), getElem_map, ← getD_eq_getElem (d := 0), DMat.getD_row]
    rw [h2 (moveRows _ X) hi, h2 X hi, h1, hq]
    refine DMat.vec_ext (by simp) fun j hj => ?_
    have hj : j < quarterTurn.rows := by simpa using hj
    have hm : ∀ l : List ℝ, ∀ j, (l.map (t * ·)).getD j 0 = t * l.getD j 0 := by
      intro l j
      rw [show (0 : ℝ) = t * 0 by ring, getD_map]
      simp
    rw [hm, DMat.getD_mulVec hj, DMat.getD_mulVec hj, Finset.mul_sum]
    exact Finset.sum_congr rfl fun k _ => by rw [hm]; ring
  · have ht : train (fun _ => true) 1 1 ⟨0, []⟩ = ⟨1, [.step 0 0 0, .log 0, .log 0]⟩ := by decide
    have h5 : ∀ b : DMat ℝ × DMat ℝ, everyFifth [b] = [b] := fun b => by simp [everyFifth]
    have hm : ∀ t : ℝ, ∃ v, regressorLoss scaleModel t (DMat.of 1 2 fun _ _ => 1, DMat.of 1 2 fun _ _ => 1) = .ok v := by
      intro t
      have := mse_same (P := DMat.of 1 2 fun i j => t * (DMat.of 1 2 fun _ _ => (1 : ℝ)).e i j) (Y := DMat.of 1 2 fun _ _ => 1) (r := 1) (n := 2) rfl rfl rfl rfl
      exact ⟨_, this⟩
    have he : ∀ t (X : DMat ℝ) gs, ∃ v, equivarianceErr (scaleModel t) id id X gs = .ok v := fun t X gs => ⟨_, rfl⟩
    obtain ⟨T, hT⟩ : ∃ T, T = (regressor drift (fun _ => 1) scaleModel 1 (fun _ _ => (DMat.of 1 2 fun _ _ => 1, DMat.of 1 2 fun _ _ => 1))
      [("test", some 1, [(DMat.of 1 2 fun _ _ => 1, DMat.of 1 2 fun _ _ => 1)])]).plus scaleModel id id (fun _ _ n => replicate n quarterTurn) := ⟨_, rfl⟩
    have hlog : ∀ s, ∃ s', T.exec s (.log 0) = .ok s' := by
      intro s
      obtain ⟨v, hv⟩ := he s.params (DMat.of 1 2 fun _ _ => 1) (replicate 1 quarterTurn)
      obtain ⟨u, hu⟩ := hm s.params
      have hv : equivarianceErr (scaleModel s.params) id id (DMat.of 1 2 fun _ _ => 1) [quarterTurn] = .ok v := hv
      simp [hT, TrainerObj.exec, TrainerObj.plus, regressor, equivarLog, h5, averageMetric, TrainerObj.allMetrics, hu, hv, bind, Except.bind, pure, Except.pure]
    obtain ⟨s1, h1⟩ := hlog ⟨(), 3, []⟩
    obtain ⟨s2, h2⟩ := hlog s1
    rw [← hT]
    refine ⟨(1, s2), ?_⟩
    have htl : T.trainLen = 1 := by rw [hT]; rfl
    have hst : T.exec ⟨(), 2, []⟩ (.step 0 0 0) = .ok ⟨(), 3, []⟩ := by
      rw [hT]
      show Except.ok _ = _
      simp only [TrainerObj.plus, regressor, drift]
      norm_num
    have hf : [Ev.step 0 0 0, .log 0, .log 0].foldlM T.exec ⟨(), 2, []⟩ = .ok s2 := by
      rw [foldlM_cons, hst]
      show ([Ev.log 0, .log 0].foldlM T.exec _ : Py _) = _
      rw [foldlM_cons, h1]
      show ([Ev.log 0].foldlM T.exec _ : Py _) = _
      rw [foldlM_cons, h2]
      rfl
    simp only [TrainerObj.run, TrainerObj.call, htl, ht, bind, Except.bind] at hf ⊢
    rw [hf]
    rfl

end Verif
