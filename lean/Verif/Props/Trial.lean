import Verif.Model.Trial
import Mathlib.Data.List.Basic

/-!
# Training trials (C109)

`hnn_trial(make_trainer,strict)(cfg,i)` and `ode_trial(make_trainer,strict)(cfg,i)`.
-/
namespace Verif
variable {T B Z : Type}

/-- What `make_trainer` may be called with: the configuration without `local_rank`, `resume` and `save`; with a trial
number, `trainer_config` differs too (its log suffix). -/
structure TrialCfg (cfg : Cfg) (i : Option ℕ) (c : Cfg) : Prop where
  gone : c.get? "local_rank" = none ∧ c.get? "resume" = none ∧ c.get? "save" = none
  kept : ∀ k, k ≠ "local_rank" → k ≠ "resume" → k ≠ "save" → k ≠ "trainer_config" → c.get? k = cfg.get? k
  same : i = none → c.get? "trainer_config" = cfg.get? "trainer_config"

theorem Cfg.get?_pop (d : Cfg) (k k' : String) : (d.pop k).get? k' = if k' = k then none else d.get? k' := by
  unfold Cfg.pop Cfg.get?
  induction d with
  | nil => simp
  | cons a t ih =>
    rw [List.filter_cons]
    by_cases h : a.1 = k
    · simp only [h, beq_self_eq_true, Bool.not_true, Bool.false_eq_true, if_false]
      rw [ih]
      by_cases e : k' = k
      · simp [e]
      · rw [if_neg e, if_neg e, List.find?_cons_of_neg (by simpa [h] using fun h' => e h'.symm)]
    · simp only [beq_iff_eq, h, not_false_eq_true, Bool.not_eq_true', beq_eq_false_iff_ne, ne_eq, if_true]
      by_cases e : a.1 = k'
      · have : k' ≠ k := fun h' => h (e.trans h')
        rw [List.find?_cons_of_pos (by simpa using e), List.find?_cons_of_pos (by simpa using e), if_neg this]
      · rw [List.find?_cons_of_neg (by simpa using e), List.find?_cons_of_neg (by simpa using e), ih]

theorem Cfg.get?_set (d : Cfg) (k k' : String) (v : CVal) : (d.set k v).get? k' = if k' = k then some v else d.get? k' := by
  unfold Cfg.set
  split
  · rename_i h
    unfold Cfg.get?
    induction d with
    | nil => simp at h
    | cons a t ih =>
      rw [List.map_cons]
      by_cases e : a.1 = k
      · simp only [e, beq_self_eq_true, if_true]
        by_cases e' : k' = k
        · rw [if_pos e', List.find?_cons_of_pos (by simpa using e'.symm)]; rfl
        · rw [if_neg e', List.find?_cons_of_neg (by simpa using fun h => e' h.symm), List.find?_cons_of_neg (by simpa [e] using fun h => e' h.symm)]
          congr 1
          clear ih h
          induction t with
          | nil => rfl
          | cons b t ih =>
            rw [List.map_cons]
            by_cases eb : b.1 = k
            · simp only [eb, beq_self_eq_true, if_true]
              rw [List.find?_cons_of_neg (by simpa using fun h => e' h.symm), List.find?_cons_of_neg (by simpa [eb] using fun h => e' h.symm), ih]
            · rw [show (if (b.1 == k) = true then (k, v) else b) = b from if_neg (by simpa using eb)]
              by_cases ek : b.1 = k'
              · rw [List.find?_cons_of_pos (by simpa using ek), List.find?_cons_of_pos (by simpa using ek)]
              · rw [List.find?_cons_of_neg (by simpa using ek), List.find?_cons_of_neg (by simpa using ek), ih]
      · rw [show (if (a.1 == k) = true then (k, v) else a) = a from if_neg (by simpa using e)]
        have h' : (t.any fun e => e.1 == k) = true := by simpa [e] using h
        by_cases ek : a.1 = k'
        · have : k' ≠ k := fun h' => e (ek.trans h')
          rw [List.find?_cons_of_pos (by simpa using ek), List.find?_cons_of_pos (by simpa using ek), if_neg this]
        · have := ih h'
          rw [List.find?_cons_of_neg (by simpa using ek), List.find?_cons_of_neg (by simpa using ek)]
          exact this
  · rename_i h
    unfold Cfg.get?
    rw [List.find?_append]
    by_cases e : k' = k
    · have : (d.find? fun e => e.1 == k') = none := by
        rw [List.find?_eq_none]
        intro x hx hxk
        exact h (List.any_eq_true.2 ⟨x, hx, by rw [← e]; exact hxk⟩)
      rw [this, if_pos e]
      simp [e]
    · rw [if_neg e, List.find?_cons_of_neg (by simpa using fun h => e h.symm)]
      simp

theorem withSuffix_eq {cfg c : Cfg} {i : ℕ} (h : withSuffix cfg i = .ok c) : ∃ v, c = cfg.set "trainer_config" v := by
  unfold withSuffix at h
  split at h
  · injection h with h; exact ⟨_, h.symm⟩
  · split at h
    · injection h with h; exact ⟨_, h.symm⟩
    · injection h with h; exact ⟨_, h.symm⟩
    · cases h
  · cases h

/-- The configuration when `make_trainer` is called, or the exception raised before. -/
def prepared (cfg : Cfg) (i : Option ℕ) : Py Cfg :=
  match i with
  | none => .ok (((cfg.pop "local_rank").pop "resume").pop "save")
  | some i => withSuffix (((cfg.pop "local_rank").pop "resume").pop "save") i

theorem prepared_spec {cfg c : Cfg} {i : Option ℕ} (h : prepared cfg i = .ok c) : TrialCfg cfg i c := by
  cases i with
  | none =>
    injection h with h
    subst h
    refine ⟨by simp [Cfg.get?_pop], fun k h1 h2 h3 h4 => ?_, fun _ => ?_⟩
    · rw [Cfg.get?_pop, Cfg.get?_pop, Cfg.get?_pop, if_neg h3, if_neg h2, if_neg h1]
    · simp [Cfg.get?_pop]
  | some i =>
    obtain ⟨v, rfl⟩ := withSuffix_eq h
    refine ⟨by simp [Cfg.get?_pop, Cfg.get?_set], fun k h1 h2 h3 h4 => ?_, fun h => by cases h⟩
    rw [Cfg.get?_set, if_neg h4, Cfg.get?_pop, Cfg.get?_pop, Cfg.get?_pop, if_neg h3, if_neg h2, if_neg h1]

/-- Whether the caller asked for a checkpoint. -/
def wantsSave (cfg : Cfg) : Bool := match cfg.get? "save" with | some v => v.truthy | none => false

theorem call_eq (E : TrialEnv T B Z) (strict : Bool) (cfg : Cfg) (i : Option ℕ) : E.call strict cfg i =
    match prepared cfg i with
    | .error e => ⟨((cfg.pop "local_rank").pop "resume").pop "save", [], .error (if strict then e else .unbound)⟩
    | .ok c =>
      match E.makeTrainer c with
      | (.error e, c) => ⟨c, [], .error (if strict then e else .unbound)⟩
      | (.ok t, c) =>
        match E.rest t c (wantsSave cfg) i with
        | .error e => ⟨c, [], if strict then .error e else .ok (.inr e)⟩
        | .ok (o, f) => ⟨c, [f], .ok (.inl o)⟩ := by
  have hs : wantsSave ((cfg.pop "local_rank").pop "resume") = wantsSave cfg := by
    unfold wantsSave
    rw [Cfg.get?_pop, Cfg.get?_pop, if_neg (by decide), if_neg (by decide)]
  rw [← hs]
  cases i <;> rfl

/-- **C109.** `make_trainer` sees only configurations without `local_rank`, `resume` and `save`, and otherwise the one given: two
environments that agree on these behave alike. -/
theorem C109_make_trainer (E E' : TrialEnv T B Z) (strict : Bool) (cfg : Cfg) (i : Option ℕ)
    (hm : ∀ c, TrialCfg cfg i c → E.makeTrainer c = E'.makeTrainer c)
    (h : E.addScalars = E'.addScalars ∧ E.train = E'.train ∧ E.outcome = E'.outcome ∧ E.tests = E'.tests ∧ E.rollout = E'.rollout ∧ E.fmt = E'.fmt) :
    E.call strict cfg i = E'.call strict cfg i := by
  rw [call_eq, call_eq]
  cases hp : prepared cfg i with
  | error e => rfl
  | ok c =>
    simp only
    rw [hm c (prepared_spec hp)]
    obtain ⟨h1, h2, h3, h4, h5, h6⟩ := h
    have hr : ∀ t c s, E.rest t c s i = E'.rest t c s i := by
      intro t c s
      unfold TrialEnv.rest
      rw [h1, h2, h3, h4, h5, h6]
    simp only [hr]

theorem Except.bind_ok {ε α β : Type} {x : Except ε α} {f : α → Except ε β} {b : β} (h : (x >>= f) = .ok b) : ∃ a, x = .ok a ∧ f a = .ok b := by
  cases x with
  | error e => cases h
  | ok a => exact ⟨a, rfl, h⟩

theorem Cfg.item_ok {d : Cfg} {k : String} {v : CVal} (h : d.item k = .ok v) : d.get? k = some v := by
  unfold Cfg.item at h
  cases hd : d.get? k with
  | none => rw [hd] at h; cases h
  | some w => rw [hd] at h; injection h with h; rw [h]

theorem Cfg.item_some {d : Cfg} {k : String} {v : CVal} (h : d.get? k = some v) : d.item k = .ok v := by
  unfold Cfg.item; rw [h]

/-- What a successful trial has done with its trainer. -/
structure TrialOK (E : TrialEnv T B Z) (t : T) (c : Cfg) (i : Option ℕ) (o : CVal) (files : List (String × List Z)) : Prop where
  /-- It logged the configuration and trained for the configured number of epochs. -/
  trained : E.addScalars t c = .ok () ∧ ∃ n, c.get? "num_epochs" = some n ∧ E.train t n = .ok ()
  /-- It returns the outcome of the checkpoint. -/
  outcome : E.outcome t = .ok o
  /-- It wrote one file with the predicted and true trajectories of all test minibatches, in order. -/
  file : ∃ bs trajs net d g, E.tests t = .ok bs ∧ bs ≠ [] ∧ bs.mapM (E.rollout t) = .ok trajs ∧ c.get? "network" = some net ∧
    c.get? "net_config" = some (.dict d) ∧ Cfg.get? d "group" = some g ∧ files = [(trialFile (E.fmt net) (E.fmt g) i, trajs.flatten)]

theorem mapM_length {α β : Type} {f : α → Py β} : ∀ {l : List α} {m : List β}, l.mapM f = .ok m → m.length = l.length
  | [], m, h => by
    injection h with h; rw [← h]; rfl
  | a :: t, m, h => by
    rw [List.mapM_cons] at h
    obtain ⟨b, -, h⟩ := Except.bind_ok h
    obtain ⟨bs, hbs, h⟩ := Except.bind_ok h
    injection h with h
    rw [← h, List.length_cons, List.length_cons, mapM_length hbs]

theorem rest_ok {E : TrialEnv T B Z} {t : T} {c : Cfg} {save : Bool} {i : Option ℕ} {o : CVal} {f : String × List Z} :
    E.rest t c save i = .ok (o, f) ↔ save = false ∧ TrialOK E t c i o [f] := by
  constructor
  · intro h
    unfold TrialEnv.rest at h
    obtain ⟨_, h1, h⟩ := Except.bind_ok h
    obtain ⟨n, h2, h⟩ := Except.bind_ok h
    obtain ⟨_, h3, h⟩ := Except.bind_ok h
    cases save with
    | true => obtain ⟨_, h4, _⟩ := Except.bind_ok h; cases h4
    | false =>
      obtain ⟨_, -, h⟩ := Except.bind_ok h
      obtain ⟨o', h5, h⟩ := Except.bind_ok h
      obtain ⟨bs, h6, h⟩ := Except.bind_ok h
      obtain ⟨trajs, h7, h⟩ := Except.bind_ok h
      have hne : trajs.isEmpty = false := by
        cases he : trajs.isEmpty with
        | false => rfl
        | true => rw [he] at h; obtain ⟨_, h8, _⟩ := Except.bind_ok h; cases h8
      obtain ⟨_, -, h⟩ := Except.bind_ok h
      obtain ⟨net, h8, h⟩ := Except.bind_ok h
      obtain ⟨nc, h9, h⟩ := Except.bind_ok h
      cases nc with
      | dict d =>
        obtain ⟨g, h10, h⟩ := Except.bind_ok h
        injection h with h
        obtain ⟨rfl, rfl⟩ := Prod.mk.inj h
        refine ⟨rfl, ⟨h1, n, Cfg.item_ok h2, h3⟩, h5, bs, trajs, net, d, g, h6, ?_, h7, Cfg.item_ok h8, Cfg.item_ok h9, Cfg.item_ok h10, rfl⟩
        rintro rfl
        have := mapM_length h7
        rw [List.isEmpty_eq_false_iff] at hne
        exact hne (List.length_eq_zero_iff.1 this)
      | obj _ => cases h
      | str _ => cases h
      | bool _ => cases h
  · rintro ⟨rfl, ⟨h1, n, h2, h3⟩, h5, bs, trajs, net, d, g, h6, hbs, h7, h8, h9, h10, hf⟩
    have hne : trajs.isEmpty = false := by
      rw [List.isEmpty_eq_false_iff]
      rintro rfl
      exact hbs (List.length_eq_zero_iff.1 (mapM_length h7).symm)
    unfold TrialEnv.rest
    rw [h1, Cfg.item_some h2]
    simp only [bind, Except.bind, raiseIf, Bool.false_eq_true, if_false, h3, h5, h6, h7, hne, Cfg.item_some h8, Cfg.item_some h9, Cfg.item_some h10]
    injection hf with hf
    rw [hf]
    rfl

/-- **C109.** A trial returns a regular outcome exactly if no checkpoint was asked for, `make_trainer` returned, and every stage
up to the rollouts succeeded; it then returns the outcome of the checkpoint with the configuration, and has
written one file with the trajectories of all test minibatches. -/
theorem C109_success (E : TrialEnv T B Z) (strict : Bool) (cfg : Cfg) (i : Option ℕ) (o : CVal) (c' : Cfg) (files : List (String × List Z)) :
    E.call strict cfg i = ⟨c', files, .ok (.inl o)⟩ ↔
      wantsSave cfg = false ∧ ∃ c t, prepared cfg i = .ok c ∧ E.makeTrainer c = (.ok t, c') ∧ TrialOK E t c' i o files := by
  rw [call_eq]
  cases hp : prepared cfg i with
  | error e => simp
  | ok c =>
    simp only
    cases hm : E.makeTrainer c with
    | mk r c'' =>
      cases r with
      | error e => simp [hm]
      | ok t =>
        simp only
        cases hr : E.rest t c'' (wantsSave cfg) i with
        | error e =>
          simp only [Except.ok.injEq]
          constructor
          · intro h
            have := congrArg TrialRes.out h
            cases strict <;> simp at this
          · rintro ⟨hs, c, t', rfl, hm', hok⟩
            rw [hm] at hm'
            obtain ⟨h1, rfl⟩ := Prod.mk.inj hm'
            injection h1 with h1
            subst h1
            obtain ⟨bs, trajs, net, d, g, -, -, -, -, -, -, hf⟩ := hok.file
            rw [hf] at hok
            rw [rest_ok.2 ⟨hs, hok⟩] at hr
            cases hr
        | ok of =>
          obtain ⟨o', f⟩ := of
          obtain ⟨h1, h2⟩ := rest_ok.1 hr
          simp only [TrialRes.mk.injEq, Except.ok.injEq, Sum.inl.injEq]
          constructor
          · rintro ⟨rfl, rfl, rfl⟩
            exact ⟨h1, c, t, rfl, hm, h2⟩
          · rintro ⟨hs, c, t', rfl, hm', hok⟩
            rw [hm] at hm'
            obtain ⟨h3, rfl⟩ := Prod.mk.inj hm'
            injection h3 with h3
            subst h3
            obtain ⟨bs, trajs, net, d, g, e1, -, e2, e3, e4, e5, hf⟩ := h2.file
            obtain ⟨bs', trajs', net', d', g', e1', -, e2', e3', e4', e5', hf'⟩ := hok.file
            have ho := h2.outcome
            rw [hok.outcome] at ho
            injection ho with ho
            rw [e1] at e1'; injection e1' with e1'; subst e1'
            rw [e2] at e2'; injection e2' with e2'; subst e2'
            rw [e3] at e3'; injection e3' with e3'; subst e3'
            rw [e4] at e4'; injection e4' with e4'; injection e4' with e4'; subst e4'
            rw [e5] at e5'; injection e5' with e5'; subst e5'
            exact ⟨rfl, hf.trans hf'.symm, ho.symm⟩

/-- **C109.** A trial that does not succeed writes no file. -/
theorem C109_no_partial_file (E : TrialEnv T B Z) (strict : Bool) (cfg : Cfg) (i : Option ℕ)
    (h : ∀ o, (E.call strict cfg i).out ≠ .ok (.inl o)) : (E.call strict cfg i).files = [] := by
  rw [call_eq] at h ⊢
  cases hp : prepared cfg i with
  | error e => rfl
  | ok c =>
    rw [hp] at h
    simp only at h ⊢
    cases hm : E.makeTrainer c with
    | mk r c'' =>
      rw [hm] at h
      cases r with
      | error e => rfl
      | ok t =>
        simp only at h ⊢
        cases hr : E.rest t c'' (wantsSave cfg) i with
        | error e => rfl
        | ok of => rw [hr] at h; exact absurd rfl (h of.1)

/-- **C109.** With `strict=True` a trial never returns an exception as its outcome: it returns a regular outcome or raises. -/
theorem C109_strict (E : TrialEnv T B Z) (cfg : Cfg) (i : Option ℕ) (e : PyErr) : (E.call true cfg i).out ≠ .ok (.inr e) := by
  rw [call_eq]
  cases prepared cfg i with
  | error e => simp
  | ok c =>
    simp only
    cases hm : E.makeTrainer c with
    | mk r c'' =>
      cases r with
      | error e => simp
      | ok t =>
        simp only
        cases hr : E.rest t c'' (wantsSave cfg) i with
        | error e => simp
        | ok of => simp

/-- **C109.** With `strict=False` and an exception after `make_trainer`, the exception that `strict=True` raises is returned as outcome. -/
theorem C109_lenient (E : TrialEnv T B Z) (cfg : Cfg) (i : Option ℕ) {c : Cfg} (hp : prepared cfg i = .ok c) {t : T} {c' : Cfg}
    (hm : E.makeTrainer c = (.ok t, c')) :
    (E.call false cfg i).out = match (E.call true cfg i).out with | .ok r => .ok r | .error e => .ok (.inr e) := by
  rw [call_eq, call_eq, hp]
  simp only [hm]
  cases E.rest t c' (wantsSave cfg) i with
  | error e => rfl
  | ok of => rfl

/-- **C109.** (partial) With `strict=False` a trial whose `make_trainer` returns never raises, provided that the configured
`trainer_config` is a dictionary whose `log_suffix`, if any, is a string.  Missing: exceptions of `make_trainer` itself
(`C109_counterexample_lenient`). -/
theorem C109_lenient_partial (E : TrialEnv T B Z) (cfg : Cfg) (i : Option ℕ)
    (hc : cfg.get? "trainer_config" = none ∨ ∃ d, cfg.get? "trainer_config" = some (.dict d) ∧
      (Cfg.get? d "log_suffix" = none ∨ ∃ s, Cfg.get? d "log_suffix" = some (.str s)))
    (hm : ∀ c, ∃ t c', E.makeTrainer c = (.ok t, c')) : ∃ r, (E.call false cfg i).out = .ok r := by
  have hp : ∃ c, prepared cfg i = .ok c := by
    cases i with
    | none => exact ⟨_, rfl⟩
    | some i =>
      unfold prepared withSuffix
      simp only
      have e : (((cfg.pop "local_rank").pop "resume").pop "save").get? "trainer_config" = cfg.get? "trainer_config" := by
        simp [Cfg.get?_pop]
      rw [e]
      rcases hc with h | ⟨d, h, h' | ⟨s, h'⟩⟩
      · rw [h]; exact ⟨_, rfl⟩
      · rw [h]; simp only [h']; exact ⟨_, rfl⟩
      · rw [h]; simp only [h']; exact ⟨_, rfl⟩
  obtain ⟨c, hp⟩ := hp
  obtain ⟨t, c', hm⟩ := hm c
  rw [C109_lenient E cfg i hp hm]
  cases (E.call true cfg i).out <;> exact ⟨_, rfl⟩

/-- **C109 is false** for exceptions of `make_trainer`: with `strict=False` the trial does not return them as outcome but raises
`UnboundLocalError` at `del trainer`, whatever the configuration. -/
theorem C109_counterexample_lenient (E : TrialEnv T B Z) (e : PyErr) (hm : ∀ c, (E.makeTrainer c).1 = .error e) (cfg : Cfg) (i : Option ℕ) :
    (E.call false cfg i).out = .error .unbound := by
  rw [call_eq]
  cases prepared cfg i with
  | error e => rfl
  | ok c =>
    simp only
    have := hm c
    cases hmc : E.makeTrainer c with
    | mk r c' =>
      rw [hmc] at this
      simp only at this
      subst this
      rfl

/-- **C109 is false** for `save=True`: no trial succeeds, and the training is lost; `Trainer` has no `save_checkpoint`. -/
theorem C109_counterexample_save (E : TrialEnv T B Z) (strict : Bool) (cfg : Cfg) (i : Option ℕ) (hs : wantsSave cfg = true) (o : CVal) :
    (E.call strict cfg i).out ≠ .ok (.inl o) := by
  intro h
  have := (C109_success E strict cfg i o (E.call strict cfg i).cfg (E.call strict cfg i).files).1 (by rw [← h])
  rw [hs] at this
  cases this.1

/-! ### Log directories and file names -/

theorem toString_nat_inj {a b : ℕ} (h : toString a = toString b) : a = b := by
  rw [Nat.toString_eq_ofList_toDigits, Nat.toString_eq_ofList_toDigits] at h
  have h := congrArg String.toList h
  rw [String.toList_ofList, String.toList_ofList] at h
  rw [← Nat.ofDigitChars_ten_toDigits (n := a), h, Nat.ofDigitChars_ten_toDigits]

theorem fmtTrial_inj {i j : Option ℕ} (h : fmtTrial i = fmtTrial j) : i = j := by
  have hd : ∀ n : ℕ, toString n ≠ "None" := by
    intro n h
    rw [Nat.toString_eq_ofList_toDigits] at h
    have h := congrArg String.toList h
    rw [String.toList_ofList] at h
    have : 'N'.isDigit = true := Nat.isDigit_of_mem_toDigits (b := 10) (n := n) (by omega) (by omega) (by rw [h]; decide)
    exact absurd this (by decide)
  cases i with
  | none =>
    cases j with
    | none => rfl
    | some j => exact absurd h.symm (hd j)
  | some i =>
    cases j with
    | none => exact absurd h (hd i)
    | some j => rw [toString_nat_inj h]

/-- **C109.** Trials of the same network and group with different numbers write different files. -/
theorem C109_file_names {net group : String} {i j : Option ℕ} (h : trialFile net group i = trialFile net group j) : i = j := by
  unfold trialFile at h
  have h := congrArg String.toList h
  simp only [String.toList_append] at h
  have h := List.append_cancel_right h
  have h := List.append_cancel_left h
  exact fmtTrial_inj (String.toList_inj.1 h)

/-- **C109.** The file is named after network, group and trial number: trials that differ in the network only, or in the group only, write different
files. -/
theorem C109_file_names_net {net net' group group' : String} {i : Option ℕ} :
    (trialFile net group i = trialFile net' group i → net = net') ∧ (trialFile net group i = trialFile net group' i → group = group') := by
  constructor
  · intro h
    unfold trialFile at h
    have h := congrArg String.toList h
    simp only [String.toList_append] at h
    have h := List.append_cancel_right (List.append_cancel_right (List.append_cancel_right (List.append_cancel_right (List.append_cancel_right h))))
    exact String.toList_inj.1 (List.append_cancel_left h)
  · intro h
    unfold trialFile at h
    have h := congrArg String.toList h
    simp only [String.toList_append] at h
    have h := List.append_cancel_right (List.append_cancel_right (List.append_cancel_right h))
    exact String.toList_inj.1 (List.append_cancel_left h)

/-- The log suffix in a configuration. -/
def suffixOf (cfg : Cfg) : Option String :=
  match cfg.get? "trainer_config" with
  | some (.dict d) => match Cfg.get? d "log_suffix" with | some (.str s) => some s | _ => none
  | _ => none

/-- The configuration after trials with these numbers on one dictionary. -/
def TrialEnv.afterAll (E : TrialEnv T B Z) (strict : Bool) : List ℕ → Cfg → Cfg
  | [], cfg => cfg
  | i :: t, cfg => E.afterAll strict t (E.call strict cfg (some i)).cfg

theorem osJoin_dir (a b : String) (h : a = "" ∨ a.toList.getLast? = some '/') : osJoin a b = a ++ b := if_pos h

theorem trial_last (a b : List Char) : (a ++ (b ++ (toString "/").toList)).getLast? = some '/' := by
  have : (toString "/").toList = ['/'] := rfl
  rw [this, ← List.append_assoc, List.getLast?_concat]

theorem call_suffix (E : TrialEnv T B Z) (strict : Bool) (cfg : Cfg) (i : ℕ) (s : String)
    (hk : ∀ c, suffixOf (E.makeTrainer c).2 = suffixOf c)
    (hs : suffixOf cfg = some s ∨ (s = "" ∧ (cfg.get? "trainer_config" = none ∨ ∃ d, cfg.get? "trainer_config" = some (.dict d) ∧ Cfg.get? d "log_suffix" = none))) :
    suffixOf (E.call strict cfg (some i)).cfg = some (osJoin s s!"trial{i}/") := by
  have hp : ∃ c, prepared cfg (some i) = .ok c ∧ suffixOf c = some (osJoin s s!"trial{i}/") := by
    have e : (((cfg.pop "local_rank").pop "resume").pop "save").get? "trainer_config" = cfg.get? "trainer_config" := by
      simp [Cfg.get?_pop]
    unfold prepared withSuffix
    simp only [e]
    rcases hs with hs | ⟨rfl, h | ⟨d, h, h'⟩⟩
    · unfold suffixOf at hs
      split at hs
      · rename_i d hd
        split at hs
        · rename_i s' hs'
          injection hs with hs
          subst hs
          rw [hd]
          simp only [hs']
          exact ⟨_, rfl, by simp [suffixOf, Cfg.get?_set]⟩
        · cases hs
      · cases hs
    · rw [h]
      exact ⟨_, rfl, by simp only [suffixOf, Cfg.get?_set, if_true]; rfl⟩
    · rw [h]
      simp only [h']
      exact ⟨_, rfl, by simp [suffixOf, Cfg.get?_set]⟩
  obtain ⟨c, hp, hc⟩ := hp
  rw [call_eq, hp]
  have := hk c
  simp only
  cases hm : E.makeTrainer c with
  | mk r c' =>
    rw [hm] at this
    rw [← hc, ← this]
    cases r with
    | error e => rfl
    | ok t =>
      simp only
      cases E.rest t c' (wantsSave cfg) (some i) with
      | error e => rfl
      | ok of => rfl

/-- **C109 is false** for the log directory: a trial appends to the `log_suffix` in the caller's dictionary, so trials made with one dictionary
log in nested directories: the trial after those with the numbers `is` logs under `trial{i₁}/…/trial{iₙ}/`. -/
theorem C109_counterexample_nested (E : TrialEnv T B Z) (strict : Bool) (hk : ∀ c, suffixOf (E.makeTrainer c).2 = suffixOf c) (is : List ℕ) (hne : is ≠ [])
    (cfg : Cfg) (hcfg : cfg.get? "trainer_config" = none ∨ ∃ d, cfg.get? "trainer_config" = some (.dict d) ∧ Cfg.get? d "log_suffix" = none) :
    suffixOf (E.afterAll strict is cfg) = some (String.join (is.map fun i => s!"trial{i}/")) := by
  have key : ∀ (is : List ℕ) (cfg : Cfg) (s : String), (s = "" ∨ s.toList.getLast? = some '/') → suffixOf cfg = some s →
      suffixOf (E.afterAll strict is cfg) = some (s ++ String.join (is.map fun i => s!"trial{i}/")) := by
    intro is
    induction is with
    | nil => intro cfg s _ h; rw [TrialEnv.afterAll, h]; simp
    | cons i t ih =>
      intro cfg s hs h
      have h1 := call_suffix E strict cfg i s hk (.inl h)
      rw [osJoin_dir _ _ hs] at h1
      rw [TrialEnv.afterAll, ih _ _ (.inr (by rw [String.toList_append, String.toList_append]; exact trial_last _ _)) h1, List.map_cons, String.join_cons, String.append_assoc]
  cases is with
  | nil => exact absurd rfl hne
  | cons i t =>
    have h1 := call_suffix E strict cfg i "" hk (.inr ⟨rfl, hcfg⟩)
    rw [osJoin_dir _ _ (.inl rfl), String.empty_append] at h1
    rw [TrialEnv.afterAll, key t _ _ (.inr (by rw [String.toList_append]; exact trial_last [] _)) h1, List.map_cons, String.join_cons]

/-- **C109 is false** for the files: trials on different data with the same network, group and number write to the same file, the later one
replaces the earlier. -/
theorem C109_counterexample_overwrite : ∃ (E : TrialEnv Cfg ℕ ℕ) (cfg cfg' : Cfg), (cfg.get? "dataset").isSome ∧ (cfg'.get? "dataset").isSome ∧
    ∃ o o' f f', (E.call true cfg none).out = .ok (.inl o) ∧ (E.call true cfg' none).out = .ok (.inl o') ∧
      (E.call true cfg none).files = [f] ∧ (E.call true cfg' none).files = [f'] ∧ f.1 = f'.1 ∧ f.2 ≠ f'.2 := by
  let E : TrialEnv Cfg ℕ ℕ := ⟨fun c => (.ok c, c), fun _ _ => .ok (), fun _ _ => .ok (), fun _ => .ok (.obj 0), fun _ => .ok [0],
    fun t _ => match Cfg.get? t "dataset" with | some (.obj n) => .ok [n] | _ => .error .key, fun | .str s => s | _ => "?"⟩
  let cfg (n : ℕ) : Cfg := [("dataset", .obj n), ("num_epochs", .obj 5), ("network", .str "EMLPH"), ("net_config", .dict [("group", .str "O2eR3()")])]
  exact ⟨E, cfg 1, cfg 2, rfl, rfl, .obj 0, .obj 0, ("./EMLPH_O2eR3()_None.t", [1]), ("./EMLPH_O2eR3()_None.t", [2]), rfl, rfl, rfl, rfl, rfl, by decide⟩

/-- A trial that succeeds, one whose training fails, and the hypotheses of **C109**. -/
example : ∃ (E : TrialEnv ℕ ℕ ℕ) (cfg : Cfg), wantsSave cfg = false ∧ (∀ c, ∃ t c', E.makeTrainer c = (.ok t, c')) ∧
    (∀ c, suffixOf (E.makeTrainer c).2 = suffixOf c) ∧
    (∃ o, (E.call true cfg (some 3)).out = .ok (.inl o)) ∧ (E.call true cfg (some 3)).files = [("./N_G_3.t", [10, 20])] ∧
    suffixOf (E.call true cfg (some 3)).cfg = some "trial3/" :=
  ⟨⟨fun c => (.ok 0, c), fun _ _ => .ok (), fun _ _ => .ok (), fun _ => .ok (.obj 0), fun _ => .ok [1, 2], fun _ b => .ok [10 * b],
    fun | .str s => s | _ => "?"⟩,
    [("local_rank", .obj 0), ("num_epochs", .obj 5), ("network", .str "N"), ("net_config", .dict [("group", .str "G")])],
    rfl, fun c => ⟨_, _, rfl⟩, fun c => rfl, ⟨_, rfl⟩, rfl, rfl⟩

end Verif
