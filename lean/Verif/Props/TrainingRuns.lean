import Verif.Spec.TrainingRuns
import Verif.Props.RegressorPlus

/-!
# C126: what a training run computes
-/
namespace Verif
open List

section
variable {Θ σ γ β : Type}

theorem optimize_append (learner : Learner Θ σ γ) (lr : ℝ → ℝ) (loss : Θ → β → Py Fl) (batches : ℕ → ℕ → β) (S : ℕ) (l l' : List (ℕ × ℕ)) (s : σ × Θ) :
    optimize learner lr loss batches S (l ++ l') s = (optimize learner lr loss batches S l s >>= optimize learner lr loss batches S l') := by
  induction l generalizing s with
  | nil => rfl
  | cons a l ih =>
    obtain ⟨e, i⟩ := a
    rw [cons_append, optimize, optimize]
    cases learner.gradvals (fun t => loss t (batches e i)) s.2 with
    | error x => rfl
    | ok g => exact ih _

/-- The steps among the events: epoch and number of the minibatch. -/
def evPairs (evs : List Ev) : List (ℕ × ℕ) := (stepsOf evs).map fun x => (x.1, x.2.1)

theorem evPairs_append (a b : List Ev) : evPairs (a ++ b) = evPairs a ++ evPairs b := by
  unfold evPairs
  rw [stepsOf_append, map_append]

theorem passes_append (S : ℕ) (a b : List ℕ) : passes S (a ++ b) = passes S a ++ passes S b := flatMap_append

theorem trainOuter_pairs (doLog : ℕ → Bool) (S : ℕ) : ∀ (es : List ℕ) (s : TrainSt) (last : ℕ), evPairs (trainOuter doLog S es s last).1.ev = evPairs s.ev ++ passes S es
  | [], s, last => by simp [trainOuter, passes]
  | e :: es, s, last => by
    rw [trainOuter]
    rw [trainOuter_pairs doLog S es, evPairs_append, append_assoc]
    congr 1
    rw [evPairs, trainInner_steps, map_map]
    rfl

theorem train_pairs (doLog : ℕ → Bool) (S num e : ℕ) : evPairs (train doLog S num ⟨e, []⟩).ev = passes S (List.range' e num) := by
  show evPairs (_ ++ [Ev.log _]) = _
  rw [evPairs_append, trainOuter_pairs]
  simp [evPairs, stepsOf]

theorem train_epoch (doLog : ℕ → Bool) (S num e : ℕ) : (train doLog S num ⟨e, []⟩).epoch = e + max num 1 := by
  have := (trainOuter_spec doLog S num e ⟨e, []⟩ 0).2
  show (trainOuter doLog S (List.range' e num) ⟨e, []⟩ 0).1.epoch + 1 = _
  rw [this]
  split_ifs with h
  · rw [h]; rfl
  · have := Nat.max_eq_left (Nat.one_le_iff_ne_zero.2 h)
    omega

variable (T : TrainerObj Θ σ γ β)

/-- The recursion for a trainer. -/
noncomputable abbrev TrainerObj.optimize (l : List (ℕ × ℕ)) (s : σ × Θ) : Py (σ × Θ) := Verif.optimize T.learner T.lrSched T.loss T.batches T.trainLen l s

theorem exec_step (s : RunSt Θ σ) (e i st : ℕ) : T.exec s (.step e i st) = (T.optimize [(e, i)] (s.opt, s.params)).map fun r => { s with opt := r.1, params := r.2 } := by
  simp only [TrainerObj.exec, TrainerObj.step, TrainerObj.optimize, optimize]
  cases T.learner.gradvals (fun t => T.loss t (T.batches e i)) s.params <;> rfl

/-- What is true of the rows that a run adds to the log: they are computed at the parameters after some of the steps. -/
def RowOK (l : List (ℕ × ℕ)) (s : σ × Θ) (row : List (String × Fl)) : Prop :=
  ∃ l' s', l' <+: l ∧ T.optimize l' s = .ok s' ∧ ((∃ k rows, T.first k s'.2 = .ok rows ∧ row ∈ rows) ∨ T.allMetrics s'.2 T.loaders = .ok row)

/-- What is true of the errors of a run: the optimization raises it, or logging at the parameters after some of the steps. -/
def ErrorOK (l : List (ℕ × ℕ)) (s : σ × Θ) (x : PyErr) : Prop :=
  ∃ l', l' <+: l ∧ (T.optimize l' s = .error x ∨ ∃ s', T.optimize l' s = .ok s' ∧ ((∃ k, T.first k s'.2 = .error x) ∨ T.allMetrics s'.2 T.loaders = .error x))

variable {T}

theorem RowOK.append {l l' : List (ℕ × ℕ)} {s s' : σ × Θ} {row : List (String × Fl)} (h : RowOK T l' s' row) (hl : T.optimize l s = .ok s') : RowOK T (l ++ l') s row := by
  obtain ⟨l1, s1, h1, h2, h3⟩ := h
  refine ⟨l ++ l1, s1, (prefix_append_right_inj l).2 h1, ?_, h3⟩
  rw [TrainerObj.optimize, optimize_append]
  have hl : Verif.optimize _ _ _ _ _ l s = .ok s' := hl
  rw [hl]
  exact h2

theorem RowOK.mono {l l' : List (ℕ × ℕ)} {s : σ × Θ} {row : List (String × Fl)} (h : RowOK T l s row) (hl : l <+: l') : RowOK T l' s row := by
  obtain ⟨l1, s1, h1, h2⟩ := h
  exact ⟨l1, s1, h1.trans hl, h2⟩

theorem ErrorOK.append {l l' : List (ℕ × ℕ)} {s s' : σ × Θ} {x : PyErr} (h : ErrorOK T l' s' x) (hl : T.optimize l s = .ok s') : ErrorOK T (l ++ l') s x := by
  obtain ⟨l1, h1, h2⟩ := h
  refine ⟨l ++ l1, (prefix_append_right_inj l).2 h1, ?_⟩
  have hl : Verif.optimize _ _ _ _ _ l s = .ok s' := hl
  have e : T.optimize (l ++ l1) s = T.optimize l1 s' := by
    rw [TrainerObj.optimize, optimize_append, hl]
    rfl
  rw [e]
  exact h2

theorem ErrorOK.mono {l l' : List (ℕ × ℕ)} {s : σ × Θ} {x : PyErr} (h : ErrorOK T l s x) (hl : l <+: l') : ErrorOK T l' s x := by
  obtain ⟨l1, h1, h2⟩ := h
  exact ⟨l1, h1.trans hl, h2⟩

theorem fold_ok : ∀ (evs : List Ev) (s s' : RunSt Θ σ), evs.foldlM T.exec s = .ok s' →
    T.optimize (evPairs evs) (s.opt, s.params) = .ok (s'.opt, s'.params) ∧
    ∃ new, s'.log = s.log ++ new ∧ ∀ row ∈ new, RowOK T (evPairs evs) (s.opt, s.params) row.2
  | [], s, s', h => by
    cases h
    exact ⟨rfl, [], by simp, by simp⟩
  | a :: evs, s, s', h => by
    rw [foldlM_cons] at h
    cases ha : T.exec s a with
    | error x => rw [ha] at h; cases h
    | ok s1 =>
      rw [ha] at h
      obtain ⟨h1, new, h2, h3⟩ := fold_ok evs s1 s' h
      have ep : evPairs (a :: evs) = evPairs [a] ++ evPairs evs := by rw [← evPairs_append]; rfl
      cases a with
      | step e i st =>
        rw [exec_step] at ha
        have ep1 : evPairs [Ev.step e i st] = [(e, i)] := rfl
        rw [ep, ep1]
        cases ho : T.optimize [(e, i)] (s.opt, s.params) with
        | error x => rw [ho] at ha; cases ha
        | ok r =>
          rw [ho] at ha
          cases ha
          refine ⟨?_, new, h2, fun row hr => (h3 row hr).append ho⟩
          rw [TrainerObj.optimize, optimize_append]
          have ho : Verif.optimize _ _ _ _ _ [(e, i)] (s.opt, s.params) = .ok r := ho
          rw [ho]
          exact h1
      | log st =>
        have ep1 : evPairs [Ev.log st] = [] := rfl
        rw [ep, ep1, nil_append]
        simp only [TrainerObj.exec] at ha
        cases hf : T.first s.log.length s.params with
        | error x => rw [hf] at ha; cases ha
        | ok rows =>
          rw [hf] at ha
          cases hm : T.allMetrics s.params T.loaders with
          | error x => rw [hm] at ha; cases ha
          | ok m =>
            rw [hm] at ha
            cases ha
            refine ⟨h1, rows.map (fun r => (st, r)) ++ [(st, m)] ++ new, by rw [h2]; simp, fun row hr => ?_⟩
            rcases mem_append.1 hr with hr | hr
            · refine ⟨[], (s.opt, s.params), nil_prefix, rfl, ?_⟩
              rcases mem_append.1 hr with hr | hr
              · obtain ⟨r, hr', rfl⟩ := mem_map.1 hr
                exact .inl ⟨_, rows, hf, hr'⟩
              · rw [mem_singleton.1 hr]
                exact .inr hm
            · exact h3 row hr

theorem fold_error : ∀ (evs : List Ev) (s : RunSt Θ σ) (x : PyErr), evs.foldlM T.exec s = .error x → ErrorOK T (evPairs evs) (s.opt, s.params) x
  | [], s, x, h => by cases h
  | a :: evs, s, x, h => by
    rw [foldlM_cons] at h
    have ep : evPairs (a :: evs) = evPairs [a] ++ evPairs evs := by rw [← evPairs_append]; rfl
    rw [ep]
    cases ha : T.exec s a with
    | error y =>
      rw [ha] at h
      obtain rfl : y = x := by cases h; rfl
      refine ErrorOK.mono ?_ (prefix_append _ _)
      cases a with
      | step e i st =>
        rw [exec_step] at ha
        refine ⟨[(e, i)], prefix_rfl, .inl ?_⟩
        cases ho : T.optimize [(e, i)] (s.opt, s.params) with
        | error z => rw [ho] at ha; cases ha; rfl
        | ok r => rw [ho] at ha; cases ha
      | log st =>
        refine ⟨[], nil_prefix, .inr ⟨_, rfl, ?_⟩⟩
        simp only [TrainerObj.exec] at ha
        cases hf : T.first s.log.length s.params with
        | error z => rw [hf] at ha; cases ha; exact .inl ⟨_, hf⟩
        | ok rows =>
          rw [hf] at ha
          cases hm : T.allMetrics s.params T.loaders with
          | error z => rw [hm] at ha; cases ha; exact .inr rfl
          | ok m => rw [hm] at ha; cases ha
    | ok s1 =>
      rw [ha] at h
      have h1 := (fold_ok [a] s s1 (by rw [foldlM_cons, ha]; rfl)).1
      exact (fold_error evs s1 x h).append h1

/-- The events of a call, unless it raises. -/
theorem trainCall_eq (doLog : ℕ → Bool) (e : ℕ) (s : RunSt Θ σ) (c : TrainCall) :
    (c.num e = 0 ∧ (∃ f, c = .trainTo f ∧ f < e) ∧ T.call doLog (e, s) c = .error .assertion) ∨
    ∃ evs, evPairs evs = passes T.trainLen (List.range' e (c.num e)) ∧ (∃ evs' st, evs = evs' ++ [Ev.log st]) ∧
      T.call doLog (e, s) c = (evs.foldlM T.exec s).map fun r => (e + max (c.num e) 1, r) := by
  have key : ∀ num, (∃ evs' st, (train doLog T.trainLen num ⟨e, []⟩).ev = evs' ++ [Ev.log st]) ∧
      ((train doLog T.trainLen num ⟨e, []⟩).ev.foldlM T.exec s >>= fun r => pure ((train doLog T.trainLen num ⟨e, []⟩).epoch, r) : Py (ℕ × RunSt Θ σ)) =
      ((train doLog T.trainLen num ⟨e, []⟩).ev.foldlM T.exec s).map fun r => (e + max num 1, r) := by
    intro num
    refine ⟨⟨_, _, rfl⟩, ?_⟩
    rw [train_epoch]
    cases (train doLog T.trainLen num ⟨e, []⟩).ev.foldlM T.exec s <;> rfl
  cases c with
  | train num => exact .inr ⟨_, train_pairs doLog _ num e, (key num).1, (key num).2⟩
  | trainTo f =>
    by_cases hf : f ≥ e
    · refine .inr ⟨_, train_pairs doLog _ (f - e) e, (key _).1, ?_⟩
      simp only [TrainerObj.call, trainTo, if_pos hf]
      exact (key _).2
    · refine .inl ⟨?_, ⟨f, rfl, not_le.1 hf⟩, ?_⟩
      · show f - e = 0
        omega
      · simp only [TrainerObj.call, trainTo, if_neg hf]
        rfl

/-- **C126, parameters.** Whatever is logged and however the training is divided into calls, a run that returns has computed the recursion of the optimizer over all minibatches of the epochs
asked for, in order: each step with the gradient of the loss on its minibatch at the parameters so far and the learning rate of its place in the epoch. -/
theorem C126_parameters (e : ℕ) (s : RunSt Θ σ) (calls : List (TrainCall × (ℕ → Bool))) {r : ℕ × RunSt Θ σ} (h : T.run (e, s) calls = .ok r) :
    optimize T.learner T.lrSched T.loss T.batches T.trainLen (passes T.trainLen (epochsOf e (calls.map Prod.fst))) (s.opt, s.params) = .ok (r.2.opt, r.2.params) ∧
    ∃ new, r.2.log = s.log ++ new ∧ ∀ row ∈ new, RowOK T (passes T.trainLen (epochsOf e (calls.map Prod.fst))) (s.opt, s.params) row.2 := by
  induction calls generalizing e s with
  | nil =>
    cases h
    exact ⟨rfl, [], by simp, by simp⟩
  | cons c cs ih =>
    rw [TrainerObj.run] at h
    rcases trainCall_eq (T := T) c.2 e s c.1 with ⟨-, -, h1⟩ | ⟨evs, h1, -, h2⟩
    · rw [h1] at h; cases h
    · rw [h2] at h
      cases hf : evs.foldlM T.exec s with
      | error x => rw [hf] at h; cases h
      | ok s1 =>
        rw [hf] at h
        obtain ⟨a1, new1, a2, a3⟩ := fold_ok evs s s1 hf
        obtain ⟨b1, new2, b2, b3⟩ := ih _ s1 h
        rw [h1] at a1 a3
        have a1 : Verif.optimize T.learner T.lrSched T.loss T.batches T.trainLen _ _ = _ := a1
        rw [map_cons, epochsOf, passes_append]
        refine ⟨?_, new1 ++ new2, by rw [b2, a2, append_assoc], fun row hr => ?_⟩
        · rw [optimize_append, a1]
          exact b1
        · rcases mem_append.1 hr with hr | hr
          · exact (a3 row hr).mono (prefix_append _ _)
          · exact (b3 row hr).append a1

/-- **C126, errors.** A run that raises: training less than already trained is refused; or the optimization raises, at some step of the recursion; or logging, at the parameters after some
of its steps. -/
theorem C126_raises (e : ℕ) (s : RunSt Θ σ) (calls : List (TrainCall × (ℕ → Bool))) {x : PyErr} (h : T.run (e, s) calls = .error x) :
    (x = .assertion ∧ ∃ f, TrainCall.trainTo f ∈ calls.map Prod.fst) ∨ ErrorOK T (passes T.trainLen (epochsOf e (calls.map Prod.fst))) (s.opt, s.params) x := by
  induction calls generalizing e s with
  | nil => cases h
  | cons c cs ih =>
    rw [TrainerObj.run] at h
    rcases trainCall_eq (T := T) c.2 e s c.1 with ⟨-, ⟨f, hf, -⟩, h1⟩ | ⟨evs, h1, -, h2⟩
    · rw [h1] at h
      refine .inl ⟨by cases h; rfl, f, by simp [hf]⟩
    · rw [h2] at h
      rw [map_cons, epochsOf, passes_append]
      cases hf : evs.foldlM T.exec s with
      | error y =>
        rw [hf] at h
        obtain rfl : y = x := by cases h; rfl
        have := fold_error evs s y hf
        rw [h1] at this
        exact .inr (this.mono (prefix_append _ _))
      | ok s1 =>
        rw [hf] at h
        have a1 := (fold_ok evs s s1 hf).1
        rw [h1] at a1
        rcases ih _ s1 h with ⟨h3, f, h4⟩ | h3
        · exact .inl ⟨h3, f, by simp [h4]⟩
        · exact .inr (h3.append a1)

/-- **C126, pieces.** Calls that each ask for at least one more epoch train for all epochs from the first to the last, in order: the same as one call. -/
theorem C126_pieces (e E : ℕ) (calls : List TrainCall) (h : finalEpoch e calls = some E) : e ≤ E ∧ epochsOf e calls = epochsOf e [.trainTo E] ∧ epochsOf e calls = List.range' e (E - e) := by
  have key : ∀ (calls : List TrainCall) (e : ℕ), finalEpoch e calls = some E → e ≤ E ∧ epochsOf e calls = List.range' e (E - e) := by
    intro calls
    induction calls with
    | nil =>
      intro e h
      obtain rfl : e = E := Option.some.inj h
      simp [epochsOf]
    | cons c cs ih =>
      intro e h
      rw [finalEpoch] at h
      split_ifs at h with hc
      obtain ⟨h1, h2⟩ := ih _ h
      refine ⟨by omega, ?_⟩
      rw [epochsOf, Nat.max_eq_left (Nat.one_le_iff_ne_zero.2 hc), h2, show E - e = c.num e + (E - (e + c.num e)) by omega, ← range'_append_1]
  obtain ⟨h1, h2⟩ := key calls e h
  refine ⟨h1, ?_, h2⟩
  rw [h2]
  simp [epochsOf, TrainCall.num]

/-- The epoch after a run. -/
theorem C126_epoch (e E : ℕ) (s : RunSt Θ σ) (calls : List (TrainCall × (ℕ → Bool))) (hE : finalEpoch e (calls.map Prod.fst) = some E) {r : ℕ × RunSt Θ σ}
    (h : T.run (e, s) calls = .ok r) : r.1 = E := by
  induction calls generalizing e s with
  | nil =>
    cases h
    exact Option.some.inj hE
  | cons c cs ih =>
    rw [TrainerObj.run] at h
    rw [map_cons, finalEpoch] at hE
    split_ifs at hE with hc
    rcases trainCall_eq (T := T) c.2 e s c.1 with ⟨-, -, h1⟩ | ⟨evs, h1, -, h2⟩
    · rw [h1] at h; cases h
    · rw [h2, Nat.max_eq_left (Nat.one_le_iff_ne_zero.2 hc)] at h
      cases hf : evs.foldlM T.exec s with
      | error x => rw [hf] at h; cases h
      | ok s1 =>
        rw [hf] at h
        exact ih _ s1 hE h

/-- **C126, logging and resuming.** Two runs of trainers with the same optimizer, schedule, loss and training data that ask for the same epochs give the same parameters and optimizer state,
whatever metrics, other data, logging times and division into calls they have: by `train(5)`, or by `train(2)` and then `train_to(5)` with other metrics. -/
theorem C126_same {β' : Type} {T' : TrainerObj Θ σ γ β'} (hlearner : T'.learner = T.learner) (hlr : T'.lrSched = T.lrSched) (hlen : T'.trainLen = T.trainLen)
    (hloss : ∀ e i, i < T.trainLen → ∀ t, T'.loss t (T'.batches e i) = T.loss t (T.batches e i)) {e E : ℕ} {s s' : RunSt Θ σ} (ho : s'.opt = s.opt) (hp : s'.params = s.params)
    {calls calls' : List (TrainCall × (ℕ → Bool))} (hE : finalEpoch e (calls.map Prod.fst) = some E) (hE' : finalEpoch e (calls'.map Prod.fst) = some E)
    {r r' : ℕ × RunSt Θ σ} (h : T.run (e, s) calls = .ok r) (h' : T'.run (e, s') calls' = .ok r') : r'.1 = r.1 ∧ r'.2.opt = r.2.opt ∧ r'.2.params = r.2.params := by
  have h1 := (C126_parameters e s calls h).1
  have h2 := (C126_parameters e s' calls' h').1
  rw [(C126_pieces e E _ hE).2.2] at h1
  rw [(C126_pieces e E _ hE').2.2, hlearner, hlr, hlen, ho, hp] at h2
  have key : ∀ (l : List (ℕ × ℕ)), (∀ a ∈ l, a.2 < T.trainLen) → ∀ s, optimize T.learner T.lrSched T'.loss T'.batches T.trainLen l s = optimize T.learner T.lrSched T.loss T.batches T.trainLen l s := by
    intro l
    induction l with
    | nil => intro _ s; rfl
    | cons a l ih =>
      intro hl s
      obtain ⟨a, i⟩ := a
      rw [optimize, optimize, show (fun t => T'.loss t (T'.batches a i)) = fun t => T.loss t (T.batches a i) from funext (hloss a i (hl (a, i) (by simp)))]
      cases T.learner.gradvals (fun t => T.loss t (T.batches a i)) s.2 with
      | error x => rfl
      | ok g => exact ih (fun b hb => hl b (by simp [hb])) _
  rw [key _ (fun a ha => by
    obtain ⟨e', -, ha⟩ := mem_flatMap.1 ha
    obtain ⟨i, hi, rfl⟩ := mem_map.1 ha
    exact mem_range.1 hi), h1] at h2
  have h2 := Prod.mk.inj (Except.ok.inj h2)
  refine ⟨?_, h2.1.symm, h2.2.symm⟩
  rw [C126_epoch e E s calls hE h, C126_epoch e E s' calls' hE' h']

/-- **C126, the last row.** The last row of the log after a run has the metrics at the final parameters. -/
theorem C126_last (e : ℕ) (s : RunSt Θ σ) (calls : List (TrainCall × (ℕ → Bool))) (hc : calls ≠ []) {r : ℕ × RunSt Θ σ} (h : T.run (e, s) calls = .ok r) :
    ∃ st row, r.2.log.getLast? = some (st, row) ∧ T.allMetrics r.2.params T.loaders = .ok row := by
  induction calls generalizing e s with
  | nil => exact absurd rfl hc
  | cons c cs ih =>
    rw [TrainerObj.run] at h
    rcases trainCall_eq (T := T) c.2 e s c.1 with ⟨-, -, h1⟩ | ⟨evs, h1, ⟨evs', st, hev⟩, h2⟩
    · rw [h1] at h; cases h
    · rw [h2] at h
      cases hf : evs.foldlM T.exec s with
      | error x => rw [hf] at h; cases h
      | ok s1 =>
        rw [hf] at h
        cases cs with
        | cons c' cs' => exact ih _ s1 (by simp) h
        | nil =>
          cases h
          rw [hev, foldlM_append] at hf
          cases hf1 : evs'.foldlM T.exec s with
          | error x => rw [hf1] at hf; cases hf
          | ok s0 =>
            rw [hf1] at hf
            have hf : ([Ev.log st].foldlM T.exec s0 : Py _) = .ok s1 := hf
            rw [foldlM_cons] at hf
            simp only [TrainerObj.exec] at hf
            cases hr : T.first s0.log.length s0.params with
            | error x => rw [hr] at hf; cases hf
            | ok rows =>
              rw [hr] at hf
              cases hm : T.allMetrics s0.params T.loaders with
              | error x => rw [hm] at hf; cases hf
              | ok m =>
                rw [hm] at hf
                cases hf
                exact ⟨st, m, by simp, hm⟩

/-- `evalAverageMetrics` is the mean over the minibatches, whatever the attribute `batch_size` is, if it is not 0. -/
theorem averageMetric_mean {bs : Option ℕ} {l : List β} {f : β → Py Fl} {v : Fl} (h : averageMetric bs l f = .ok v) :
    bs ≠ some 0 ∧ l ≠ [] ∧ ∃ vs, Forall₂ (fun b u => f b = .ok u) l vs ∧ v = averageFl vs := by
  have key : ∀ (mb : ℕ) (l : List β) (a r : Fl × ℕ), l.foldlM (m := Py) (fun (a : Fl × ℕ) b => do
        let v ← f b
        pure ((do let x ← a.1; let y ← v; pure (x + mb * y) : Fl), a.2 + mb)) a = .ok r →
      r.2 = a.2 + l.length * mb ∧ ∃ vs, Forall₂ (fun b u => f b = .ok u) l vs ∧
        r.1 = if none ∈ vs then none else a.1.map (· + mb * (vs.map fun v => v.getD 0).sum) := by
    intro mb l
    induction l with
    | nil =>
      intro a r hr
      cases hr
      refine ⟨by simp, [], .nil, ?_⟩
      rw [if_neg (by simp)]
      cases a.1 <;> simp
    | cons b l ih =>
      intro a r hr
      rw [foldlM_cons] at hr
      cases hb : f b with
      | error e => rw [hb] at hr; cases hr
      | ok y =>
        rw [hb] at hr
        obtain ⟨h1, vs, h2, h3⟩ := ih _ r hr
        refine ⟨by rw [h1, length_cons]; dsimp only; ring, y :: vs, .cons hb h2, ?_⟩
        rw [h3]
        dsimp only
        cases y with
        | none =>
          rw [if_pos (show none ∈ none :: vs by simp)]
          split_ifs
          · rfl
          · cases a.1 <;> rfl
        | some y =>
          by_cases hv : none ∈ vs
          · rw [if_pos hv, if_pos (by simp [hv])]
          · rw [if_neg hv, if_neg (by simp [hv])]
            cases a.1 with
            | none => rfl
            | some x =>
              show some _ = some _
              rw [map_cons, sum_cons, Option.getD_some]
              congr 1
              dsimp only
              ring
  unfold averageMetric at h
  dsimp only at h
  cases hr : l.foldlM (m := Py) (fun (a : Fl × ℕ) b => do
        let v ← f b
        pure ((do let x ← a.1; let y ← v; pure (x + (bs.getD 1 : ℕ) * y) : Fl), a.2 + bs.getD 1)) ((some 0 : Fl), 0) with
  | error e => erw [hr] at h; cases h
  | ok r =>
    erw [hr] at h
    obtain ⟨h1, vs, h2, h3⟩ := key _ l _ r hr
    simp only [bind, Except.bind] at h
    split_ifs at h with h0
    have hn : l.length * bs.getD 1 ≠ 0 := by
      rw [h1] at h0
      simpa using h0
    have hl : l.length ≠ 0 := left_ne_zero_of_mul hn
    have hb : bs.getD 1 ≠ 0 := right_ne_zero_of_mul hn
    refine ⟨fun h => hb (by rw [h]; rfl), fun h => hl (by rw [h]; rfl), vs, h2, ?_⟩
    rw [← Except.ok.inj h, h3, averageFl, h1, ← h2.length_eq]
    split_ifs with hv
    · rfl
    · simp only [Option.map_some]
      congr 1
      have e1 : (l.length : ℝ) ≠ 0 := by exact_mod_cast hl
      have e2 : ((bs.getD 1 : ℕ) : ℝ) ≠ 0 := by exact_mod_cast hb
      push_cast
      field_simp
      ring

/-- **C126, metrics.** A row of metrics at parameters `t` has for each loader with minibatches, except `train` and those whose name begins with `_`, and each metric the entry `loader_metric`: the mean over the
minibatches of the loader of the metric at `t`, NaN if one of them is.  It has no other entries. -/
theorem C126_metrics {t : Θ} : ∀ {L : List (String × Option ℕ × List β)} {row : List (String × Fl)}, T.allMetrics t L = .ok row → ∀ (key : String) (v : Fl),
    ((key, v) ∈ row ↔ ∃ name bs l, (name, bs, l) ∈ L ∧ name ≠ "train" ∧ l ≠ [] ∧ name.toList.head? ≠ some '_' ∧
      ∃ μ ∈ T.metrics, key = name ++ "_" ++ μ.1 ∧ ∃ vs, Forall₂ (fun b u => μ.2 t b = .ok u) l vs ∧ v = averageFl vs)
  | [], row, h, key, v => by
    cases h
    simp
  | (name, bs, l) :: L, row, h, key, v => by
    have uniq : ∀ {μ : String × (Θ → β → Py Fl)} {vs vs' : List Fl} {l : List β}, Forall₂ (fun b u => μ.2 t b = .ok u) l vs → Forall₂ (fun b u => μ.2 t b = .ok u) l vs' → vs = vs' := by
      intro μ vs vs' l h1
      induction h1 generalizing vs' with
      | nil => intro h2; cases h2; rfl
      | cons h1 _ ih =>
        intro h2
        cases h2 with
        | cons h3 h4 => rw [ih h4, Except.ok.inj (h1.symm.trans h3)]
    have hM : ∀ (M : List (String × (Θ → β → Py Fl))) (r : List (String × Fl)),
        (M.mapM fun m => (averageMetric bs l (m.2 t) >>= fun v => pure (name ++ "_" ++ m.1, v) : Py _)) = .ok r →
        ((key, v) ∈ r ↔ ∃ μ ∈ M, key = name ++ "_" ++ μ.1 ∧ ∃ vs, Forall₂ (fun b u => μ.2 t b = .ok u) l vs ∧ v = averageFl vs) := by
      intro M
      induction M with
      | nil => intro r hr; cases hr; simp
      | cons μ M ih =>
        intro r hr
        rw [mapM_cons] at hr
        cases hv : averageMetric bs l (μ.2 t) with
        | error e => rw [hv] at hr; cases hr
        | ok u =>
          rw [hv] at hr
          cases hM : M.mapM fun m => (averageMetric bs l (m.2 t) >>= fun v => pure (name ++ "_" ++ m.1, v) : Py _) with
          | error e => rw [hM] at hr; cases hr
          | ok r' =>
            rw [hM] at hr
            cases hr
            obtain ⟨-, -, vs, h1, h2⟩ := averageMetric_mean hv
            rw [mem_cons, ih r' hM]
            constructor
            · rintro (h3 | ⟨μ', h3, h4⟩)
              · obtain ⟨rfl, rfl⟩ := Prod.mk.inj h3
                exact ⟨μ, by simp, rfl, vs, h1, h2⟩
              · exact ⟨μ', by simp [h3], h4⟩
            · rintro ⟨μ', h3, h4, vs', h5, h6⟩
              rcases mem_cons.1 h3 with rfl | h3
              · left
                rw [h4, h6, h2, uniq h1 h5]
              · exact .inr ⟨μ', h3, h4, vs', h5, h6⟩
    have hrest : ∀ rest, T.allMetrics t L = .ok rest → ∀ here, row = here ++ rest →
        ((key, v) ∈ here ↔ (name ≠ "train" ∧ l ≠ [] ∧ name.toList.head? ≠ some '_' ∧
          ∃ μ ∈ T.metrics, key = name ++ "_" ++ μ.1 ∧ ∃ vs, Forall₂ (fun b u => μ.2 t b = .ok u) l vs ∧ v = averageFl vs)) →
        ((key, v) ∈ row ↔ ∃ name' bs' l', (name', bs', l') ∈ (name, bs, l) :: L ∧ name' ≠ "train" ∧ l' ≠ [] ∧ name'.toList.head? ≠ some '_' ∧
          ∃ μ ∈ T.metrics, key = name' ++ "_" ++ μ.1 ∧ ∃ vs, Forall₂ (fun b u => μ.2 t b = .ok u) l' vs ∧ v = averageFl vs) := by
      intro rest hr here hrow hh
      rw [hrow, mem_append, hh, C126_metrics hr key v]
      constructor
      · rintro (h1 | ⟨n', b', l', h1, h2⟩)
        · exact ⟨name, bs, l, by simp, h1⟩
        · exact ⟨n', b', l', by simp [h1], h2⟩
      · rintro ⟨n', b', l', h1, h2⟩
        rcases mem_cons.1 h1 with h1 | h1
        · obtain ⟨q1, q2⟩ := Prod.mk.inj h1
          obtain ⟨-, q3⟩ := Prod.mk.inj q2
          rw [q1, q3] at h2
          exact .inl h2
        · exact .inr ⟨n', b', l', h1, h2⟩
    rw [TrainerObj.allMetrics] at h
    cases hr : T.allMetrics t L with
    | error e =>
      rw [hr] at h
      exfalso
      revert h
      by_cases hc : name = "train" ∨ l.length = 0
      · rw [if_pos hc]; intro h; cases h
      · rw [if_neg hc]
        split
        · intro h; cases h
        · intro h; cases h
        · cases (T.metrics.mapM fun m => (averageMetric bs l (m.2 t) >>= fun v => pure (name ++ "_" ++ m.1, v) : Py _)) <;> intro h <;> cases h
    | ok rest =>
      rw [hr] at h
      revert h
      by_cases hc : name = "train" ∨ l.length = 0
      · rw [if_pos hc]
        intro h
        cases h
        refine hrest rest hr [] rfl ⟨fun h => by simp at h, fun h => ?_⟩
        rcases hc with hc | hc
        · exact absurd hc h.1
        · exact absurd (length_eq_zero_iff.1 hc) h.2.1
      · rw [if_neg hc]
        split
        · intro h; cases h
        · rename_i tl heq
          intro h
          cases h
          refine hrest rest hr [] rfl ⟨fun h => by simp at h, fun h => ?_⟩
          exact absurd (by rw [heq]; rfl) h.2.2.1
        · rename_i h1 h2
          cases hM' : (T.metrics.mapM fun m => (averageMetric bs l (m.2 t) >>= fun v => pure (name ++ "_" ++ m.1, v) : Py _)) with
          | error e => intro h; cases h
          | ok here =>
            intro h
            cases h
            refine hrest rest hr here rfl ?_
            rw [hM _ _ hM']
            push Not at hc
            refine ⟨fun h => ⟨hc.1, fun h => hc.2 (by rw [h]; rfl), fun h => ?_, h⟩, fun h => h.2.2.2⟩
            cases hl : name.toList with
            | nil => rw [hl] at h; cases h
            | cons ch tl =>
              rw [hl] at h
              obtain rfl : ch = '_' := Option.some.inj h
              exact h2 tl hl

/-- **C126, the learning rate and the losses of `Regressor`.** For `Regressor` the losses of the recursion are the mean squared errors on the minibatches. -/
theorem C126_regressor (learner : Learner Θ σ γ) (lrSched : ℝ → ℝ) (model : Θ → DMat ℝ → Py (DMat ℝ)) (S : ℕ) (batches : ℕ → ℕ → DMat ℝ × DMat ℝ)
    (loaders : List (String × Option ℕ × List (DMat ℝ × DMat ℝ))) (e : ℕ) (s : RunSt Θ σ) (calls : List (TrainCall × (ℕ → Bool))) {r : ℕ × RunSt Θ σ}
    (h : (regressor learner lrSched model S batches loaders).run (e, s) calls = .ok r) :
    optimize learner lrSched (fun t mb => model t mb.1 >>= fun P => mse P (.d2 mb.2)) batches S (passes S (epochsOf e (calls.map Prod.fst))) (s.opt, s.params) = .ok (r.2.opt, r.2.params) :=
  (C126_parameters e s calls h).1

end

/-! Cases: `train(2)` and then `train_to(5)` train for the epochs 0 to 4; with two minibatches per epoch, and an optimizer that adds the learning rate, here the epoch, the recursion returns.
A run that returns is given with C125. -/

example : finalEpoch 0 [.train 2, .trainTo 5] = some 5 ∧ epochsOf 0 [.train 2, .trainTo 5] = [0, 1, 2, 3, 4] := ⟨rfl, rfl⟩

example (loss : ℝ → Unit → Py Fl) : optimize drift id loss (fun _ _ => ()) 2 (passes 2 [0, 1]) ((), 0) = .ok ((), 3) := by
  show Except.ok ((), (0 : ℝ) + (((0 : ℕ) : ℝ) + (0 : ℕ) / (2 : ℕ)) + (((0 : ℕ) : ℝ) + (1 : ℕ) / (2 : ℕ)) + (((1 : ℕ) : ℝ) + (0 : ℕ) / (2 : ℕ)) + (((1 : ℕ) : ℝ) + (1 : ℕ) / (2 : ℕ))) = _
  norm_num

end Verif
