import Verif.Model.Training
import Verif.Spec.Training
import Verif.Props.Losses
import Verif.Lemmas.Bilinear

/-!
# Lemmas on training runs
-/
namespace Verif
open List

section
variable {Θ σ γ β β' : Type}

theorem trainInner_lt (doLog : ℕ → Bool) (S e : ℕ) : ∀ (is : List ℕ) (last : ℕ), (∀ i ∈ is, i < S) →
    ∀ a ∈ (trainInner doLog S e is last).1, ∀ e' i st, a = Ev.step e' i st → i < S
  | [], _, _, a, ha, _, _, _, _ => by simp [trainInner] at ha
  | j :: js, last, h, a, ha, e', i, st, hs => by
    rw [trainInner] at ha
    simp only [mem_cons, mem_append] at ha
    rcases ha with ha | ha | ha
    · rw [ha] at hs
      cases hs
      exact h j (by simp)
    · split_ifs at ha
      · rw [mem_singleton] at ha
        rw [ha] at hs; cases hs
      · simp at ha
    · exact trainInner_lt doLog S e js _ (fun i hi => h i (by simp [hi])) a ha e' i st hs

theorem trainOuter_lt (doLog : ℕ → Bool) (S : ℕ) : ∀ (es : List ℕ) (s : TrainSt) (last : ℕ), (∀ a ∈ s.ev, ∀ e' i st, a = Ev.step e' i st → i < S) →
    ∀ a ∈ (trainOuter doLog S es s last).1.ev, ∀ e' i st, a = Ev.step e' i st → i < S
  | [], s, _, h => by rw [trainOuter]; exact h
  | e :: es, s, last, h => by
    rw [trainOuter]
    refine trainOuter_lt doLog S es _ _ fun a ha => ?_
    rcases mem_append.1 ha with ha | ha
    · exact h a ha
    · exact trainInner_lt doLog S e _ _ (fun i hi => mem_range.1 hi) a ha

/-- Only the minibatches that the loader has are used. -/
theorem train_lt (doLog : ℕ → Bool) (S num e : ℕ) : ∀ a ∈ (train doLog S num ⟨e, []⟩).ev, ∀ e' i st, a = Ev.step e' i st → i < S := by
  intro a ha e' i st hs
  rcases mem_append.1 ha with ha | ha
  · exact trainOuter_lt doLog S _ _ _ (by simp) a ha e' i st hs
  · rw [mem_singleton] at ha
    rw [ha] at hs; cases hs

/-- Two trainers, of the same or of different models and data, that see the same losses and metrics at all values of the parameters. -/
structure TrainerObj.Agree (T : TrainerObj Θ σ γ β) (T' : TrainerObj Θ σ γ β') : Prop where
  learner : T'.learner = T.learner
  lrSched : T'.lrSched = T.lrSched
  trainLen : T'.trainLen = T.trainLen
  loss : ∀ e i, i < T.trainLen → ∀ t, T'.loss t (T'.batches e i) = T.loss t (T.batches e i)
  metrics : ∀ t, T'.allMetrics t T'.loaders = T.allMetrics t T.loaders
  first : ∀ k t, T'.first k t = T.first k t

theorem TrainerObj.Agree.exec {T : TrainerObj Θ σ γ β} {T' : TrainerObj Θ σ γ β'} (h : T.Agree T') (s : RunSt Θ σ) (a : Ev)
    (ha : ∀ e' i st, a = Ev.step e' i st → i < T.trainLen) : T'.exec s a = T.exec s a := by
  cases a with
  | step e i st =>
    have hl : (fun t => T'.loss t (T'.batches e i)) = fun t => T.loss t (T.batches e i) := funext (h.loss e i (ha e i st rfl))
    simp only [TrainerObj.exec, TrainerObj.step]
    rw [hl, h.learner, h.lrSched, h.trainLen]
  | log st =>
    simp only [TrainerObj.exec]
    rw [h.first, h.metrics]

theorem foldlM_congr_py {α ε : Type} {f f' : α → ε → Py α} : ∀ (l : List ε), (∀ a ∈ l, ∀ s, f' s a = f s a) → ∀ s, l.foldlM f' s = l.foldlM f s
  | [], _, _ => rfl
  | a :: l, h, s => by
    rw [foldlM_cons, foldlM_cons, h a (by simp)]
    cases f s a with
    | error e => rfl
    | ok s' => exact foldlM_congr_py l (fun b hb => h b (by simp [hb])) s'

theorem TrainerObj.Agree.call {T : TrainerObj Θ σ γ β} {T' : TrainerObj Θ σ γ β'} (h : T.Agree T') (doLog : ℕ → Bool) (s : ℕ × RunSt Θ σ) (c : TrainCall) :
    T'.call doLog s c = T.call doLog s c := by
  have key : ∀ num, (train doLog T.trainLen num ⟨s.1, []⟩).ev.foldlM T'.exec s.2 = (train doLog T.trainLen num ⟨s.1, []⟩).ev.foldlM T.exec s.2 :=
    fun num => foldlM_congr_py _ (fun a ha s => h.exec s a (train_lt doLog _ num _ a ha)) _
  cases c with
  | train num =>
    simp only [TrainerObj.call]
    rw [h.trainLen]
    show (List.foldlM T'.exec s.2 _ >>= _) = (List.foldlM T.exec s.2 _ >>= _)
    rw [key]
  | trainTo final =>
    simp only [TrainerObj.call, trainTo]
    rw [h.trainLen]
    split_ifs
    · show (List.foldlM T'.exec s.2 _ >>= _) = (List.foldlM T.exec s.2 _ >>= _)
      rw [key]
    · rfl

theorem TrainerObj.Agree.run {T : TrainerObj Θ σ γ β} {T' : TrainerObj Θ σ γ β'} (h : T.Agree T') : ∀ (cs : List (TrainCall × (ℕ → Bool)))
    (s : ℕ × RunSt Θ σ), T'.run s cs = T.run s cs
  | [], _ => rfl
  | c :: cs, s => by
    rw [TrainerObj.run, TrainerObj.run, h.call]
    cases T.call c.2 s c.1 with
    | error e => rfl
    | ok s' => exact h.run cs s'

theorem averageMetric_congr {bs : Option ℕ} {l : List β} {l' : List β'} {f : β → Py Fl} {f' : β' → Py Fl} (h : Forall₂ (fun b b' => f' b' = f b) l l') :
    averageMetric bs l' f' = averageMetric bs l f := by
  have key : ∀ (l : List β) (l' : List β'), Forall₂ (fun b b' => f' b' = f b) l l' → ∀ a : Fl × ℕ,
      l'.foldlM (m := Py) (fun (a : Fl × ℕ) b => do
        let v ← f' b
        pure ((do let x ← a.1; let y ← v; pure (x + (bs.getD 1 : ℕ) * y) : Fl), a.2 + bs.getD 1)) a =
      l.foldlM (m := Py) (fun (a : Fl × ℕ) b => do
        let v ← f b
        pure ((do let x ← a.1; let y ← v; pure (x + (bs.getD 1 : ℕ) * y) : Fl), a.2 + bs.getD 1)) a := by
    intro l l' h
    induction h with
    | nil => intro a; rfl
    | cons h1 _ ih =>
      intro a
      rw [foldlM_cons, foldlM_cons, h1]
      rename_i b b' _ _ _
      cases f b with
      | error e => rfl
      | ok v => exact ih _
  unfold averageMetric
  dsimp only
  rw [key l l' h]

theorem allMetrics_average {T : TrainerObj Θ σ γ β} {T' : TrainerObj Θ σ γ β'} (t : Θ)
    (hm : Forall₂ (fun m m' => m'.1 = m.1) T.metrics T'.metrics)
    {L : List (String × Option ℕ × List β)} {L' : List (String × Option ℕ × List β')}
    (h : Forall₂ (fun a a' => a'.1 = a.1 ∧ a'.2.1 = a.2.1 ∧
      ∀ m m', (m, m') ∈ T.metrics.zip T'.metrics → averageMetric a'.2.1 a'.2.2 (m'.2 t) = averageMetric a.2.1 a.2.2 (m.2 t)) L L')
    (hl : Forall₂ (fun a a' => a'.2.2.length = a.2.2.length) L L') :
    T'.allMetrics t L' = T.allMetrics t L := by
  induction h with
  | nil => rfl
  | cons h1 _ ih =>
    rename_i a a' L L' _
    obtain ⟨name, bs, l⟩ := a
    obtain ⟨name', bs', l'⟩ := a'
    obtain ⟨e1, e2, e3⟩ := h1
    obtain ⟨hl1, hl2⟩ := forall₂_cons.1 hl
    dsimp only at e1 e2 e3 hl1
    subst e1 e2
    have hmap : (T'.metrics.mapM fun m => (averageMetric bs' l' (m.2 t) >>= fun v => pure (name' ++ "_" ++ m.1, v) : Py _)) =
        T.metrics.mapM fun m => (averageMetric bs' l (m.2 t) >>= fun v => pure (name' ++ "_" ++ m.1, v) : Py _) := by
      clear hl ih hl2
      revert e3 hm
      generalize T.metrics = M
      generalize T'.metrics = M'
      intro hm
      induction hm with
      | nil => intro _; rfl
      | cons g1 _ ih2 =>
        intro e3
        rw [mapM_cons, mapM_cons, e3 _ _ (show _ ∈ (_ :: _ : List _) from mem_cons_self), g1, ih2 fun m m' hmm => e3 m m' (by simp [hmm])]
    rw [TrainerObj.allMetrics, TrainerObj.allMetrics, ih hl2, hl1]
    by_cases hc : name' = "train" ∨ l.length = 0
    · rw [if_pos hc, if_pos hc]
    · rw [if_neg hc, if_neg hc]
      split
      · rfl
      · rfl
      · rw [hmap]

theorem allMetrics_congr {T : TrainerObj Θ σ γ β} {T' : TrainerObj Θ σ γ β'} (t : Θ)
    (hm : Forall₂ (fun m m' => m'.1 = m.1) T.metrics T'.metrics)
    {L : List (String × Option ℕ × List β)} {L' : List (String × Option ℕ × List β')}
    (h : Forall₂ (fun a a' => a'.1 = a.1 ∧ a'.2.1 = a.2.1 ∧
      ∀ m m', (m, m') ∈ T.metrics.zip T'.metrics → Forall₂ (fun b b' => m'.2 t b' = m.2 t b) a.2.2 a'.2.2) L L')
    (hl : Forall₂ (fun a a' => a'.2.2.length = a.2.2.length) L L') :
    T'.allMetrics t L' = T.allMetrics t L :=
  allMetrics_average t hm (h.imp fun a a' h => ⟨h.1, h.2.1, fun m m' hmm => by rw [h.2.1, averageMetric_congr (h.2.2 m m' hmm)]⟩) hl

end

/-! ### Moved batches -/

theorem moveRows_row (A : ℕ → DMat ℝ) (X : DMat ℝ) {i : ℕ} (hi : i < X.rows) (h : (A i).rows = X.cols) : (moveRows A X).row i = (A i).mulVec (X.row i) := by
  refine ext_getElem (by simp [moveRows, DMat.of, h]) fun j h1 h2 => ?_
  have hj : j < X.cols := by simpa [moveRows, DMat.of] using h1
  have e1 : ((moveRows A X).row i)[j] = ((moveRows A X).row i).getD j 0 := (getD_eq_getElem _ _ h1).symm
  rw [e1, DMat.getD_row, moveRows, DMat.of_e hi hj, getD_eq_getElem _ _ h2]

theorem eq_moveRows {A : ℕ → DMat ℝ} {X Y : DMat ℝ} (hr : Y.rows = X.rows) (hc : Y.cols = X.cols) (h : ∀ i < X.rows, Y.row i = (A i).mulVec (X.row i)) :
    Y = moveRows A X := by
  refine DMat.ext hr hc fun i j hi hj => ?_
  rw [moveRows, DMat.of_e (hr ▸ hi) (hc ▸ hj), ← h i (hr ▸ hi), DMat.getD_row]

theorem moveRows_one {A : ℕ → DMat ℝ} {X : DMat ℝ} (h : ∀ i < X.rows, A i = DMat.one X.cols) : moveRows A X = X := by
  refine (eq_moveRows rfl rfl fun i hi => ?_).symm
  rw [h i hi, DMat.mulVec_one _ (DMat.length_row _ _)]

theorem mse_same {P Y : DMat ℝ} {r n : ℕ} (h1 : P.rows = r) (h2 : P.cols = n) (h3 : Y.rows = r) (h4 : Y.cols = n) :
    mse P (.d2 Y) = .ok (fdiv (∑ i ∈ Finset.range r, ∑ j ∈ Finset.range n, (P.e i j - Y.e i j) ^ 2) (r * n : ℕ)) := by
  have e : broadcastSub P Y = .ok (DMat.of P.rows P.cols fun i j => stretched P i j - stretched Y i j) := by
    unfold broadcastSub broadcastDim
    rw [if_pos (h1.trans h3.symm), if_pos (h2.trans h4.symm)]
    rfl
  rw [mse, e]
  show Except.ok (meanSq _) = _
  unfold meanSq
  congr 2
  · show ((range P.rows).map _).sum = _
    rw [lossSum_range, h1]
    refine Finset.sum_congr rfl fun i hi => ?_
    have hi := Finset.mem_range.1 hi
    show ((range P.cols).map _).sum = _
    rw [lossSum_range, h2]
    refine Finset.sum_congr rfl fun j hj => ?_
    have hj := Finset.mem_range.1 hj
    rw [DMat.of_e hi hj, stretched_eq (by omega) (by omega), stretched_eq (by omega) (by omega)]
  · show ((P.rows * P.cols : ℕ) : ℝ) = _
    rw [h1, h2]

/-- Moving predictions and labels by the same orthogonal matrices, one for each row, does not change the loss. -/
theorem mse_moveRows {P Y : DMat ℝ} {n : ℕ} {A : ℕ → DMat ℝ} (hc : P.cols = n) (hY : Y.cols = n) (hr : Y.rows = P.rows)
    (hA : ∀ i < P.rows, (A i).IsSq n ∧ (A i).transpose.mul (A i) = DMat.one n) :
    mse (moveRows A P) (.d2 (moveRows A Y)) = mse P (.d2 Y) := by
  rw [mse_same (P := moveRows A P) (Y := moveRows A Y) (r := P.rows) (n := n) rfl hc hr hY, mse_same rfl hc hr hY]
  congr 2
  refine Finset.sum_congr rfl fun i hi => ?_
  have hi := Finset.mem_range.1 hi
  have h := orth_dist (hA i hi).1 (hA i hi).2 (P.row i) (Y.row i) (by simp [hc]) (by simp [hY])
  simp only [DMat.getD_row] at h
  rw [← h]
  refine Finset.sum_congr rfl fun j hj => ?_
  have hj := Finset.mem_range.1 hj
  rw [moveRows, moveRows, DMat.of_e hi (by omega), DMat.of_e (by omega) (by omega)]

end Verif
