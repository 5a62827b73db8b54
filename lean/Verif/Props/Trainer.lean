import Mathlib.Tactic.Ring
import Mathlib.Tactic.Linarith
import Mathlib.Tactic.NormNum
import Mathlib.Tactic.FieldSimp
import Mathlib.Algebra.BigOperators.Group.List.Basic
import Verif.Model.Trainer

/-!
# Properties of the trainer and of the container conversions
-/
namespace Verif
open List

/-! ## C87: epochs and steps -/

/-- The optimisation steps in a list of events: epoch, minibatch number, step number. -/
def stepsOf (ev : List Ev) : List (ℕ × ℕ × ℕ) := ev.filterMap fun | .step e i n => some (e, i, n) | .log _ => none

theorem stepsOf_append (a b : List Ev) : stepsOf (a ++ b) = stepsOf a ++ stepsOf b := filterMap_append

theorem trainInner_steps (doLog : ℕ → Bool) (S e : ℕ) (is : List ℕ) (last : ℕ) :
    stepsOf (trainInner doLog S e is last).1 = is.map fun i => (e, i, i + e * S) := by
  induction is generalizing last with
  | nil => rfl
  | cons i is ih =>
    simp only [trainInner]
    rw [← singleton_append, stepsOf_append, stepsOf_append, ih]
    have : stepsOf (if doLog (i + e * S) then [Ev.log (i + e * S)] else []) = [] := by split <;> rfl
    rw [this]
    rfl

theorem trainOuter_spec (doLog : ℕ → Bool) (S : ℕ) (n : ℕ) : ∀ (e : ℕ) (s : TrainSt) (last : ℕ),
    stepsOf (trainOuter doLog S (List.range' e n) s last).1.ev = stepsOf s.ev ++ (List.range' (e * S) (n * S)).map (fun m => (m / S, m % S, m)) ∧
    (trainOuter doLog S (List.range' e n) s last).1.epoch = if n = 0 then s.epoch else e + n - 1 := by
  induction n with
  | zero => simp [trainOuter]
  | succ n ih =>
    intro e s last
    rw [range'_succ]
    simp only [trainOuter]
    obtain ⟨h1, h2⟩ := ih (e + 1) { epoch := e, ev := s.ev ++ (trainInner doLog S e (List.range S) last).1 } (trainInner doLog S e (List.range S) last).2
    rw [h1, h2]
    constructor
    · rw [stepsOf_append, trainInner_steps, append_assoc]
      congr 1
      rw [Nat.add_mul n 1 S, Nat.one_mul, Nat.add_comm (n * S) S, ← range'_append_1, map_append, Nat.add_mul, Nat.one_mul]
      congr 1
      rw [range'_eq_map_range, map_map]
      apply map_congr_left
      intro i hi
      rw [mem_range] at hi
      have hS : 0 < S := by omega
      simp only [Function.comp]
      rw [Nat.mul_comm e S, Nat.mul_add_div hS, Nat.div_eq_of_lt hi, Nat.mul_add_mod, Nat.mod_eq_of_lt hi, Nat.add_zero, Nat.add_comm]
    · split_ifs <;> simp_all <;> omega

/-- The commands a user gives. -/
inductive TCmd
  | train (n : ℕ)
  | trainTo (e : ℕ)

/-- Run a history of commands. -/
def runCmds (doLog : ℕ → Bool) (S : ℕ) : List TCmd → TrainSt → Py TrainSt
  | [], s => .ok s
  | .train n :: cs, s => runCmds doLog S cs (train doLog S n s)
  | .trainTo e :: cs, s => (trainTo doLog S e s).bind (runCmds doLog S cs)

/-- The epoch count a user expects after a history; `none` if it contains a call for no epochs or for fewer than done. -/
def expectedEpoch : List TCmd → ℕ → Option ℕ
  | [], e => some e
  | .train n :: cs, e => if n = 0 then none else expectedEpoch cs (e + n)
  | .trainTo f :: cs, e => if f ≤ e then none else expectedEpoch cs f

/-- C87, one call: `num ≥ 1` passes advance `epoch` by `num` and visit every minibatch of every epoch once in order, with
consecutive step numbers starting at `epoch * steps_per_epoch`. -/
theorem C87_train (doLog : ℕ → Bool) (S num : ℕ) (hn : num ≠ 0) (s : TrainSt) :
    (train doLog S num s).epoch = s.epoch + num ∧
    stepsOf (train doLog S num s).ev = stepsOf s.ev ++ (List.range' (s.epoch * S) (num * S)).map (fun m => (m / S, m % S, m)) := by
  obtain ⟨h1, h2⟩ := trainOuter_spec doLog S num s.epoch s 0
  simp only [train]
  rw [stepsOf_append, h1, h2, if_neg hn]
  constructor
  · omega
  · simp [stepsOf]

/-- C87: a history of calls each asking for at least one more epoch never fails, ends at the expected epoch, and the steps of the
whole history are numbered consecutively from zero, minibatch `m % S` of epoch `m / S` at step `m`. -/
theorem C87_history_partial (doLog : ℕ → Bool) (S : ℕ) (cs : List TCmd) (E : ℕ) (h : expectedEpoch cs 0 = some E) :
    ∃ s, runCmds doLog S cs ⟨0, []⟩ = .ok s ∧ s.epoch = E ∧
      stepsOf s.ev = (List.range (E * S)).map (fun m => (m / S, m % S, m)) := by
  suffices H : ∀ (s : TrainSt), expectedEpoch cs s.epoch = some E →
      stepsOf s.ev = (List.range (s.epoch * S)).map (fun m => (m / S, m % S, m)) →
      ∃ s', runCmds doLog S cs s = .ok s' ∧ s'.epoch = E ∧ stepsOf s'.ev = (List.range (E * S)).map (fun m => (m / S, m % S, m)) from
    H ⟨0, []⟩ h (by simp [stepsOf])
  clear h
  have step : ∀ (s : TrainSt) (n : ℕ), n ≠ 0 → stepsOf s.ev = (List.range (s.epoch * S)).map (fun m => (m / S, m % S, m)) →
      stepsOf (train doLog S n s).ev = (List.range ((s.epoch + n) * S)).map (fun m => (m / S, m % S, m)) := by
    intro s n hn hs
    rw [(C87_train doLog S n hn s).2, hs, ← map_append, range_eq_range', range_eq_range', Nat.add_mul,
      ← range'_append_1 (s := 0), Nat.zero_add]
  induction cs with
  | nil =>
    intro s h hs
    simp only [expectedEpoch, Option.some.injEq] at h
    exact ⟨s, rfl, h, h ▸ hs⟩
  | cons c cs ih =>
    intro s h hs
    cases c with
    | train n =>
      simp only [expectedEpoch] at h
      split_ifs at h with hn
      exact ih _ (by rw [(C87_train doLog S n hn s).1]; exact h) (by rw [(C87_train doLog S n hn s).1]; exact step s n hn hs)
    | trainTo f =>
      simp only [expectedEpoch] at h
      split_ifs at h with hf
      have hn : f - s.epoch ≠ 0 := by omega
      have he : s.epoch + (f - s.epoch) = f := by omega
      have ht : trainTo doLog S f s = .ok (train doLog S (f - s.epoch) s) := by rw [trainTo, if_pos (by omega)]
      have e1 := (C87_train doLog S (f - s.epoch) hn s).1
      have e2 := step s _ hn hs
      rw [he] at e1 e2
      simp only [runCmds, ht, Except.bind]
      exact ih _ (by rw [e1]; exact h) (by rw [e1]; exact e2)

example : expectedEpoch [.train 2, .trainTo 5, .train 1] 0 = some 6 := rfl

/-- C87 fails for a call asking for no further epoch: no minibatch is seen, yet the epoch counter advances, so `train_to(e)` at epoch
`e` ends at `e+1` and the step numbers of the next epoch are skipped. -/
theorem C87_counterexample (doLog : ℕ → Bool) (S : ℕ) (s : TrainSt) :
    ∃ s', trainTo doLog S s.epoch s = .ok s' ∧ s'.epoch = s.epoch + 1 ∧ stepsOf s'.ev = stepsOf s.ev := by
  refine ⟨train doLog S 0 s, ?_, ?_, ?_⟩
  · rw [trainTo, if_pos (le_refl _), Nat.sub_self]
  · simp [train, trainOuter]
  · simp [train, trainOuter, stepsOf]

/-- Training less than already trained is refused and changes nothing. -/
theorem C87_train_to_less (doLog : ℕ → Bool) (S f : ℕ) (s : TrainSt) (h : f < s.epoch) : trainTo doLog S f s = .error .assertion := by
  rw [trainTo, if_neg (by omega)]

/-! ## C88: the checkpoint -/

/-- Feed a history of metric values and states to `logStuff`. -/
noncomputable def runLog {σ : Type} (maximize : Option Bool) (h : List (Fl × σ)) : LogSt σ :=
  h.foldl (fun s x => logStuff maximize s x.1 x.2) ⟨[], none⟩

theorem runLog_snoc {σ : Type} (m : Option Bool) (h : List (Fl × σ)) (x : Fl × σ) :
    runLog m (h ++ [x]) = logStuff m (runLog m h) x.1 x.2 := by
  rw [runLog, foldl_append]
  rfl

theorem runLog_values {σ : Type} (m : Option Bool) (h : List (Fl × σ)) : (runLog m h).values = h.map Prod.fst := by
  induction h using reverseRecOn with
  | nil => rfl
  | append_singleton h x ih =>
    rw [runLog_snoc, map_append, ← ih]
    cases m <;> rfl

theorem npMax_some (l : List ℝ) (hl : l ≠ []) : ∃ b, npMax (l.map some) = some b ∧ b ∈ l ∧ ∀ x ∈ l, x ≤ b := by
  induction l with
  | nil => exact absurd rfl hl
  | cons a l ih =>
    cases l with
    | nil => exact ⟨a, rfl, by simp, by simp⟩
    | cons c l =>
      obtain ⟨b, hb, hm, hx⟩ := ih (by simp)
      refine ⟨max a b, ?_, ?_, ?_⟩
      · simp only [map_cons, npMax] at hb ⊢
        rw [hb]
      · rcases max_choice a b with h | h <;> rw [h]
        · simp
        · exact mem_cons_of_mem _ hm
      · intro x h
        rcases mem_cons.1 h with rfl | h
        · exact le_max_left _ _
        · exact le_trans (hx x h) (le_max_right _ _)

/-- `better max a b`: value `a` is at least as good as `b`. -/
def better (maximize : Bool) (a b : ℝ) : Prop := if maximize then b ≤ a else a ≤ b

theorem better_iff (m : Bool) (a b : ℝ) : better m a b ↔ (if m then (1:ℝ) else -1) * b ≤ (if m then (1:ℝ) else -1) * a := by
  cases m <;> simp [better]

theorem ckpt_snoc {σ : Type} (m : Bool) (h : List (ℝ × σ)) (x : ℝ × σ) :
    ((∀ y ∈ h, better m x.1 y.1) → (runLog (some m) ((h ++ [x]).map fun y => (some y.1, y.2))).ckpt = some x.2) ∧
    (¬ (∀ y ∈ h, better m x.1 y.1) → (runLog (some m) ((h ++ [x]).map fun y => (some y.1, y.2))).ckpt =
      (runLog (some m) (h.map fun y => (some y.1, y.2))).ckpt) := by
  obtain ⟨sg, hsg⟩ : ∃ sg : ℝ, sg = if m then (1:ℝ) else -1 := ⟨_, rfl⟩
  rw [map_append, map_singleton, runLog_snoc]
  simp only [logStuff]
  rw [runLog_values, ← hsg]
  have e : (map (Option.map (sg * ·)) (map Prod.fst (map (fun y : ℝ × σ => (some y.1, y.2)) h) ++ [some x.1])) =
      ((h ++ [x]).map fun y => sg * y.1).map some := by
    simp
  rw [e]
  obtain ⟨b, hb, hm, hx⟩ := npMax_some ((h ++ [x]).map fun y => sg * y.1) (by simp)
  rw [hb]
  have hge : Fl.ge (Option.map (fun x => sg * x) (some x.1)) (some b) ↔ b ≤ sg * x.1 := Iff.rfl
  simp only [better_iff, ← hsg]
  constructor
  · intro hall
    rw [if_pos]
    rw [hge]
    obtain ⟨y, hy, rfl⟩ := mem_map.1 hm
    rcases mem_append.1 hy with hy | hy
    · exact hall y hy
    · rw [mem_singleton.1 hy]
  · intro hall
    rw [if_neg]
    rw [hge]
    intro hle
    exact hall fun y hy => le_trans (hx _ (mem_map.2 ⟨y, mem_append_left _ hy, rfl⟩)) hle

/-- C88: after any non-empty history of (non-NaN) values, the checkpoint is the state logged at the most recent time the metric
took its best value so far: at least as good as everything before, strictly better than everything after. -/
theorem C88_checkpoint_best_partial {σ : Type} (m : Bool) (h : List (ℝ × σ)) (hh : h ≠ []) :
    ∃ pre x post, h = pre ++ x :: post ∧ (∀ y ∈ pre, better m x.1 y.1) ∧ (∀ y ∈ post, ¬ better m y.1 x.1) ∧
      (runLog (some m) (h.map fun y => (some y.1, y.2))).ckpt = some x.2 := by
  induction h using reverseRecOn with
  | nil => exact absurd rfl hh
  | append_singleton h x ih =>
    obtain ⟨c1, c2⟩ := ckpt_snoc m h x
    by_cases hall : ∀ y ∈ h, better m x.1 y.1
    · exact ⟨h, x, [], by simp, hall, by simp, c1 hall⟩
    · have hne : h ≠ [] := by rintro rfl; simp at hall
      obtain ⟨pre, w, post, rfl, i1, i2, i3⟩ := ih hne
      refine ⟨pre, w, post ++ [x], by simp, i1, ?_, (c2 hall).trans i3⟩
      intro y hy
      rcases mem_append.1 hy with hy | hy
      · exact i2 y hy
      · rw [mem_singleton.1 hy]
        intro hb
        apply hall
        have tr : ∀ a b c, better m a b → better m b c → better m a c := by
          intro a b c
          simp only [better_iff]
          intro h1 h2
          exact le_trans h2 h1
        have tot : ∀ a b, ¬ better m a b → better m b a := by
          intro a b
          simp only [better_iff]
          intro h1
          exact le_of_lt (not_le.1 h1)
        intro y hy
        rcases mem_append.1 hy with hy | hy
        · exact tr _ _ _ hb (i1 y hy)
        · rcases mem_cons.1 hy with rfl | hy
          · exact hb
          · exact tr _ _ _ hb (tot _ _ (i2 y hy))

/-- C88 without early-stop metric: the checkpoint is the latest state. -/
theorem C88_no_metric {σ : Type} (h : List (Fl × σ)) (x : Fl × σ) : (runLog none (h ++ [x])).ckpt = some x.2 := by
  rw [runLog_snoc]
  rfl

theorem npMax_none {l : List Fl} (h : none ∈ l) : npMax l = none := by
  induction l with
  | nil => simp at h
  | cons a l ih =>
    cases l with
    | nil => simpa [npMax, eq_comm] using h
    | cons c l =>
      rcases mem_cons.1 h with rfl | h
      · simp [npMax]
      · simp only [npMax, ih h]

/-- C88, NaN: once the metric has been NaN the checkpoint is never updated again, however good later values are. -/
theorem C88_nan_freezes {σ : Type} (m : Bool) (h h' : List (Fl × σ)) (hn : none ∈ h.map Prod.fst) :
    (runLog (some m) (h ++ h')).ckpt = (runLog (some m) h).ckpt := by
  induction h' using reverseRecOn with
  | nil => simp
  | append_singleton h' x ih =>
    rw [← append_assoc, runLog_snoc, ← ih]
    simp only [logStuff]
    rw [runLog_values, npMax_none (l := map _ _)]
    · rw [if_neg]
      intro hf
      simp only [Fl.ge] at hf
      cases hx : Option.map (fun x => (if m then (1:ℝ) else -1) * x) x.1 <;> simp_all [Fl.ge]
    · refine mem_map.2 ⟨none, ?_, rfl⟩
      rw [map_append]
      exact mem_append_left _ (mem_append_left _ hn)

/-! ## C89: averaged metrics -/

theorem evalFold {β : Type} (mb : ℕ) (metrics : β → ℝ) (loader : List β) (a : ℝ × ℕ) :
    loader.foldl (fun (a : ℝ × ℕ) b => (a.1 + mb * metrics b, a.2 + mb)) a = (a.1 + mb * (loader.map metrics).sum, a.2 + mb * loader.length) := by
  induction loader generalizing a with
  | nil => simp
  | cons b l ih =>
    rw [foldl_cons, ih]
    simp only [map_cons, sum_cons, length_cons]
    refine Prod.ext ?_ ?_ <;> simp only <;> ring

/-- C89: the average over minibatches, whatever the batch size the loader declares. -/
theorem C89_mean {β : Type} (bs : Option ℕ) (hbs : bs ≠ some 0) (loader : List β) (metrics : β → ℝ) :
    evalAverageMetrics bs loader metrics =
      if loader = [] then .error .key else .ok ((loader.map metrics).sum / loader.length) := by
  have hmb : bs.getD 1 ≠ 0 := by
    cases bs with
    | none => simp
    | some b => simpa using hbs
  simp only [evalAverageMetrics, evalFold]
  by_cases hl : loader = []
  · simp [hl]
  · have hlen : loader.length ≠ 0 := by simpa using hl
    rw [if_neg (by simp only [Nat.zero_add]; exact Nat.mul_ne_zero hmb hlen), if_neg hl]
    congr 1
    have h1 : ((bs.getD 1 : ℕ) : ℝ) ≠ 0 := Nat.cast_ne_zero.2 hmb
    have h2 : ((loader.length : ℕ) : ℝ) ≠ 0 := Nat.cast_ne_zero.2 hlen
    push_cast
    field_simp
    try ring

/-- The mean of a per-sample metric over a batch. -/
noncomputable def batchMean {γ : Type} (f : γ → ℝ) (b : List γ) : ℝ := (b.map f).sum / b.length

/-- C89: with batches of one size and a metric that averages over its batch, the result is the average over all samples. -/
theorem C89_per_sample {γ : Type} (bs : Option ℕ) (hbs : bs ≠ some 0) (loader : List (List γ)) (hl : loader ≠ []) (n : ℕ) (hn : n ≠ 0)
    (hsz : ∀ b ∈ loader, b.length = n) (f : γ → ℝ) :
    evalAverageMetrics bs loader (batchMean f) = .ok (batchMean f loader.flatten) := by
  rw [C89_mean bs hbs, if_neg hl]
  congr 1
  have hlen : loader.length ≠ 0 := by simpa using hl
  have e1 : loader.flatten.length = loader.length * n := by
    rw [length_flatten, map_congr_left (g := fun _ => n) hsz]
    simp
  have e2 : (loader.map (batchMean f)).sum = (loader.flatten.map f).sum / n := by
    clear hl hlen e1
    induction loader with
    | nil => simp
    | cons b l ih =>
      rw [map_cons, sum_cons, ih fun b hb => hsz b (mem_cons_of_mem _ hb), flatten_cons, map_append, sum_append, batchMean, hsz b (by simp)]
      ring
  rw [batchMean, e1, e2]
  have h1 : (n : ℝ) ≠ 0 := Nat.cast_ne_zero.2 hn
  have h2 : ((loader.length : ℕ) : ℝ) ≠ 0 := Nat.cast_ne_zero.2 hlen
  push_cast
  field_simp

/-- A short last batch weighs as much as a full one: the result is then not the average over the samples. -/
theorem C89_short_batch : evalAverageMetrics (some 2) [[(0:ℝ), 0], [3]] (batchMean id) = .ok (3 / 2) ∧ batchMean id [(0:ℝ), 0, 3] = 1 := by
  rw [C89_mean _ (by simp), if_neg (by simp)]
  constructor
  · congr 1
    norm_num [batchMean]
  · norm_num [batchMean]

/-! ## C90: containers -/

/-- A step into a container. -/
inductive Step (κ : Type)
  | idx (n : ℕ)
  | key (k : κ)

/-- What is found at the end of a path. -/
inductive View (κ α : Type)
  | leaf (a : α)
  | seq (tag n : ℕ)
  | dict (keys : Finset κ)

/-- Apply a function to a leaf. -/
def View.map {κ α β : Type} (f : α → β) : View κ α → View κ β
  | .leaf a => .leaf (f a)
  | .seq t n => .seq t n
  | .dict k => .dict k

variable {κ α β γ : Type}

/-- The value stored under a key. -/
def lookupKey [DecidableEq κ] (k : κ) : List (κ × α) → Option α
  | [] => none
  | (k', a) :: es => if k' = k then some a else lookupKey k es

/-- What a user sees following a path of indices and keys. -/
def Tree.view [DecidableEq κ] : List (Step κ) → Tree κ α → Option (View κ α)
  | [], .leaf a => some (.leaf a)
  | [], .seq t cs => some (.seq t cs.length)
  | [], .dict es => some (.dict (es.map Prod.fst).toFinset)
  | .idx n :: p, .seq _ cs => cs[n]?.bind (Tree.view p)
  | .key k :: p, .dict es => (lookupKey k es).bind (Tree.view p)
  | _, _ => none

mutual
/-- Dictionaries have distinct keys. -/
def Tree.Keys : Tree κ α → Prop
  | .leaf _ => True
  | .seq _ cs => Tree.KeysL cs
  | .dict es => (es.map Prod.fst).Nodup ∧ Tree.KeysD es
def Tree.KeysL : List (Tree κ α) → Prop
  | [] => True
  | c :: cs => c.Keys ∧ Tree.KeysL cs
def Tree.KeysD : List (κ × Tree κ α) → Prop
  | [] => True
  | (_, c) :: es => c.Keys ∧ Tree.KeysD es
end

theorem Tree.mapL_eq (f : α → β) (cs : List (Tree κ α)) : Tree.mapL f cs = cs.map (Tree.map f) := by
  induction cs with
  | nil => rfl
  | cons c cs ih => simp [Tree.mapL, ih]

theorem Tree.mapD_eq (f : α → β) (es : List (κ × Tree κ α)) : Tree.mapD f es = es.map fun x => (x.1, x.2.map f) := by
  induction es with
  | nil => rfl
  | cons c cs ih => simp [Tree.mapD, ih]

theorem Tree.keysL_iff (cs : List (Tree κ α)) : Tree.KeysL cs ↔ ∀ c ∈ cs, c.Keys := by
  induction cs with
  | nil => simp [Tree.KeysL]
  | cons c cs ih => simp [Tree.KeysL, ih]

theorem Tree.keysD_iff (es : List (κ × Tree κ α)) : Tree.KeysD es ↔ ∀ x ∈ es, x.2.Keys := by
  induction es with
  | nil => simp [Tree.KeysD]
  | cons c cs ih => simp [Tree.KeysD, ih]

theorem Tree.flattenL_eq [LinearOrder κ] (cs : List (Tree κ α)) : Tree.flattenL cs = cs.map Tree.flatten := by
  induction cs with
  | nil => rfl
  | cons c cs ih => simp [Tree.flattenL, ih]

theorem Tree.flattenD_eq [LinearOrder κ] (es : List (κ × Tree κ α)) : Tree.flattenD es = es.map fun x => (x.1, x.2.flatten) := by
  induction es with
  | nil => rfl
  | cons c cs ih => simp [Tree.flattenD, ih]

theorem lookupKey_map [DecidableEq κ] (k : κ) (g : α → β) (es : List (κ × α)) :
    lookupKey k (es.map fun x => (x.1, g x.2)) = (lookupKey k es).map g := by
  induction es with
  | nil => rfl
  | cons x es ih =>
    simp only [map_cons, lookupKey]
    split_ifs
    · rfl
    · exact ih

theorem lookupKey_iff [DecidableEq κ] {k : κ} {es : List (κ × α)} (hnd : (es.map Prod.fst).Nodup) (a : α) :
    lookupKey k es = some a ↔ (k, a) ∈ es := by
  induction es with
  | nil => simp [lookupKey]
  | cons x es ih =>
    obtain ⟨k', b⟩ := x
    simp only [map_cons, nodup_cons] at hnd
    simp only [lookupKey, mem_cons, Prod.mk.injEq]
    split_ifs with h
    · subst h
      constructor
      · rintro ⟨⟩
        exact Or.inl ⟨rfl, rfl⟩
      · rintro (⟨_, rfl⟩ | h)
        · rfl
        · exact absurd (mem_map_of_mem (f := Prod.fst) h) hnd.1
    · rw [ih hnd.2]
      constructor
      · exact Or.inr
      · rintro (⟨h', _⟩ | h')
        · exact absurd h'.symm h
        · exact h'

theorem lookupKey_perm [DecidableEq κ] {k : κ} {es fs : List (κ × α)} (h : es.Perm fs) (hnd : (es.map Prod.fst).Nodup) :
    lookupKey k es = lookupKey k fs := by
  have hnd' : (fs.map Prod.fst).Nodup := (h.map _).nodup_iff.1 hnd
  ext a
  rw [lookupKey_iff hnd, lookupKey_iff hnd', h.mem_iff]

/-- Induction on nested containers. -/
theorem Tree.ind {P : Tree κ α → Prop} (hl : ∀ a, P (.leaf a)) (hs : ∀ t cs, (∀ c ∈ cs, P c) → P (.seq t cs))
    (hd : ∀ es, (∀ x ∈ es, P x.2) → P (.dict es)) (t : Tree κ α) : P t :=
  Tree.rec (motive_1 := P) (motive_2 := fun cs => ∀ c ∈ cs, P c) (motive_3 := fun es => ∀ x ∈ es, P x.2) (motive_4 := fun x => P x.2)
    hl hs hd (by simp) (fun c cs h1 h2 x hx => by
      rcases mem_cons.1 hx with rfl | hx
      · exact h1
      · exact h2 x hx) (by simp) (fun c cs h1 h2 x hx => by
      rcases mem_cons.1 hx with rfl | hx
      · exact h1
      · exact h2 x hx) (fun _ _ h => h) t

/-- Filling a structure with exactly its leaves leaves the rest of the list. -/
theorem Tree.unflatten_flatten [LinearOrder κ] (f : α → β) (t : Tree κ α) : ∃ r, (∀ as, Tree.unflatten t.flatten.2 (t.flatten.1.map f ++ as) = some (r, as)) ∧
    (t.Keys → ∀ p, r.view p = (t.view p).map (View.map f)) := by
  induction t using Tree.ind with
  | hl a =>
    refine ⟨.leaf (f a), fun as => by simp [Tree.flatten, Tree.unflatten], fun _ p => ?_⟩
    cases p with
    | nil => rfl
    | cons s p => cases s <;> rfl
  | hs t cs ih =>
    have H : ∃ rs : List (Tree κ β), (∀ as, Tree.unflattenL ((cs.map Tree.flatten).map Prod.snd) ((cs.map Tree.flatten).flatMap (fun x => x.1.map f) ++ as) = some (rs, as)) ∧
        rs.length = cs.length ∧ (Tree.KeysL cs → ∀ (n : ℕ) p, rs[n]?.bind (Tree.view p) = (cs[n]?.bind (Tree.view p)).map (View.map f)) := by
      induction cs with
      | nil => exact ⟨[], fun as => by simp [Tree.unflattenL], rfl, fun _ n p => by simp⟩
      | cons c cs IH =>
        obtain ⟨r, r1, r2⟩ := ih c (by simp)
        obtain ⟨rs, s1, s2, s3⟩ := IH fun c hc => ih c (mem_cons_of_mem _ hc)
        refine ⟨r :: rs, fun as => ?_, by simp [s2], fun hk n p => ?_⟩
        · simp only [map_cons, flatMap_cons, Tree.unflattenL, append_assoc, r1, Option.bind_some, s1, Option.map_some]
        · cases n with
          | zero => simpa using r2 hk.1 p
          | succ n => simpa using s3 hk.2 n p
    obtain ⟨rs, s1, s2, s3⟩ := H
    refine ⟨.seq t rs, fun as => ?_, fun hk p => ?_⟩
    · simp only [Tree.flatten, Tree.flattenL_eq, Tree.unflatten, map_flatMap, s1, Option.map_some]
    · cases p with
      | nil => simp [Tree.view, s2, View.map]
      | cons s p =>
        cases s with
        | idx n => simpa only [Tree.view] using s3 hk n p
        | key k => rfl
  | hd es ih =>
    -- the sorted entries
    obtain ⟨fs, hfs⟩ : ∃ fs, fs = es.insertionSort fun x y => x.1 ≤ y.1 := ⟨_, rfl⟩
    have hp : fs.Perm es := hfs ▸ perm_insertionSort _ _
    have hs : ((es.map fun x => (x.1, x.2.flatten)).insertionSort fun x y => x.1 ≤ y.1) = fs.map fun x => (x.1, x.2.flatten) := by
      rw [hfs]
      exact (map_insertionSort _ _ _ _ (by simp)).symm
    have ih' : ∀ x ∈ fs, ∃ r, (∀ as, Tree.unflatten x.2.flatten.2 (x.2.flatten.1.map f ++ as) = some (r, as)) ∧
      (x.2.Keys → ∀ p, r.view p = (x.2.view p).map (View.map f)) := fun x hx => ih x (hp.mem_iff.1 hx)
    have H : ∃ rs : List (κ × Tree κ β), (∀ as, Tree.unflattenD (fs.map fun x => (x.1, x.2.flatten.2)) (fs.flatMap (fun x => x.2.flatten.1.map f) ++ as) = some (rs, as)) ∧
        rs.map Prod.fst = fs.map Prod.fst ∧
        (Tree.KeysD fs → ∀ k p, (lookupKey k rs).bind (Tree.view p) = ((lookupKey k fs).bind (Tree.view p)).map (View.map f)) := by
      clear hfs hs hp ih
      induction fs with
      | nil => exact ⟨[], fun as => by simp [Tree.unflattenD], rfl, fun _ n p => by simp [lookupKey]⟩
      | cons c cs IH =>
        obtain ⟨k, c⟩ := c
        obtain ⟨r, r1, r2⟩ := ih' (k, c) (by simp)
        obtain ⟨rs, s1, s2, s3⟩ := IH fun c hc => ih' c (mem_cons_of_mem _ hc)
        refine ⟨(k, r) :: rs, fun as => ?_, by simp [s2], fun hk k' p => ?_⟩
        · simp only [map_cons, flatMap_cons, Tree.unflattenD, append_assoc, r1, Option.bind_some, s1, Option.map_some]
        · simp only [lookupKey]
          split_ifs
          · simpa using r2 hk.1 p
          · exact s3 hk.2 k' p
    obtain ⟨rs, s1, s2, s3⟩ := H
    refine ⟨.dict rs, fun as => ?_, fun hk p => ?_⟩
    · simp only [Tree.flatten, Tree.flattenD_eq, hs, Tree.unflatten, map_flatMap, map_map, flatMap_map, Function.comp_def]
      rw [s1]
      rfl
    · cases p with
      | nil =>
        simp only [Tree.view, Option.map_some, View.map, s2, Option.some.injEq, View.dict.injEq]
        exact toFinset_eq_of_perm _ _ (hp.map _)
      | cons s p =>
        cases s with
        | idx n => rfl
        | key k =>
          simp only [Tree.view]
          have hkf : Tree.KeysD fs := (Tree.keysD_iff fs).2 fun x hx => (Tree.keysD_iff es).1 hk.2 x (hp.mem_iff.1 hx)
          rw [s3 hkf k p, lookupKey_perm hp ((hp.map _).nodup_iff.2 hk.1)]

/-- C90: `to_jax` and `to_pytorch` succeed on every nested container, and following any path in the result shows what the same path
shows in the input, with the leaf converted. -/
theorem C90_convert [LinearOrder κ] (f : α → β) (t : Tree κ α) (ht : t.Keys) :
    ∃ r, t.convert f = .ok r ∧ ∀ p, r.view p = (t.view p).map (View.map f) := by
  obtain ⟨r, h1, h2⟩ := Tree.unflatten_flatten f t
  have h1 := h1 []
  rw [append_nil] at h1
  exact ⟨r, by rw [Tree.convert, h1], h2 ht⟩

/-- Converted containers still have distinct keys, so conversions compose. -/
theorem Tree.convert_keys [LinearOrder κ] (f : α → β) (t : Tree κ α) (ht : t.Keys) : ∀ r, t.convert f = .ok r → r.Keys := by
  have H : ∀ t : Tree κ α, t.Keys → ∀ r as, Tree.unflatten t.flatten.2 (t.flatten.1.map f ++ as) = some (r, as) → r.Keys := by
    intro t
    induction t using Tree.ind with
    | hl a =>
      intro _ r as h
      simp only [Tree.flatten, Tree.unflatten, map_cons, map_nil, cons_append, nil_append, Option.some.injEq, Prod.mk.injEq] at h
      rw [← h.1]
      trivial
    | hs tg cs ih =>
      intro hk r as h
      simp only [Tree.flatten, Tree.flattenL_eq, Tree.unflatten, map_flatMap, Option.map_eq_some_iff] at h
      obtain ⟨⟨rs, as'⟩, h1, h2⟩ := h
      simp only [Prod.mk.injEq] at h2
      obtain ⟨rfl, rfl⟩ := h2
      show Tree.KeysL rs
      clear * - ih hk h1
      induction cs generalizing rs with
      | nil =>
        simp only [map_nil, flatMap_nil, Tree.unflattenL, nil_append, Option.some.injEq, Prod.mk.injEq] at h1
        rw [← h1.1]
        trivial
      | cons c cs IH =>
        obtain ⟨r, r1, _⟩ := Tree.unflatten_flatten f c
        simp only [map_cons, flatMap_cons, Tree.unflattenL, append_assoc, r1, Option.bind_some, Option.map_eq_some_iff] at h1
        obtain ⟨⟨q, aq⟩, h2, h3⟩ := h1
        simp only [Prod.mk.injEq] at h3
        obtain ⟨rfl, rfl⟩ := h3
        exact ⟨ih c (by simp) hk.1 r [] (r1 []), IH (fun c hc => ih c (mem_cons_of_mem _ hc)) hk.2 q h2⟩
    | hd es ih =>
      intro hk r as h
      obtain ⟨fs, hfs⟩ : ∃ fs, fs = es.insertionSort fun x y => x.1 ≤ y.1 := ⟨_, rfl⟩
      have hp : fs.Perm es := hfs ▸ perm_insertionSort _ _
      have hs : ((es.map fun x => (x.1, x.2.flatten)).insertionSort fun x y => x.1 ≤ y.1) = fs.map fun x => (x.1, x.2.flatten) := by
        rw [hfs]
        exact (map_insertionSort _ _ _ _ (by simp)).symm
      simp only [Tree.flatten, Tree.flattenD_eq, hs, Tree.unflatten, map_flatMap, map_map, flatMap_map, Function.comp_def, Option.map_eq_some_iff] at h
      obtain ⟨⟨rs, as'⟩, h1, h2⟩ := h
      simp only [Prod.mk.injEq] at h2
      obtain ⟨rfl, rfl⟩ := h2
      have hnd : (fs.map Prod.fst).Nodup := (hp.map _).nodup_iff.2 hk.1
      have hkf : Tree.KeysD fs := (Tree.keysD_iff fs).2 fun x hx => (Tree.keysD_iff es).1 hk.2 x (hp.mem_iff.1 hx)
      have ih' : ∀ x ∈ fs, x.2.Keys → ∀ r as, Tree.unflatten x.2.flatten.2 (x.2.flatten.1.map f ++ as) = some (r, as) → r.Keys :=
        fun x hx => ih x (hp.mem_iff.1 hx)
      show (rs.map Prod.fst).Nodup ∧ Tree.KeysD rs
      have : rs.map Prod.fst = fs.map Prod.fst ∧ Tree.KeysD rs := by
        clear * - ih' hkf h1
        induction fs generalizing rs with
        | nil =>
          simp only [map_nil, flatMap_nil, Tree.unflattenD, nil_append, Option.some.injEq, Prod.mk.injEq] at h1
          rw [← h1.1]
          exact ⟨rfl, trivial⟩
        | cons c cs IH =>
          obtain ⟨k, c⟩ := c
          obtain ⟨r, r1, _⟩ := Tree.unflatten_flatten f c
          simp only [map_cons, flatMap_cons, Tree.unflattenD, append_assoc, r1, Option.bind_some, Option.map_eq_some_iff] at h1
          obtain ⟨⟨q, aq⟩, h2, h3⟩ := h1
          simp only [Prod.mk.injEq] at h3
          obtain ⟨rfl, rfl⟩ := h3
          obtain ⟨i1, i2⟩ := IH q h2 hkf.2 fun c hc => ih' c (mem_cons_of_mem _ hc)
          exact ⟨by simp [i1], ih' (k, c) (by simp) hkf.1 r [] (r1 []), i2⟩
      rw [this.1]
      exact ⟨hnd, this.2⟩
  intro r hr
  obtain ⟨r', h1, _⟩ := Tree.unflatten_flatten f t
  have h2 := h1 []
  rw [append_nil] at h2
  rw [Tree.convert, h2] at hr
  simp only [Except.ok.injEq] at hr
  exact hr ▸ H t ht r' [] (h1 [])

/-- C90, round trip: `to_pytorch(to_jax(tree))` shows, at every path, the input with each leaf converted there and back. -/
theorem C90_round_trip [LinearOrder κ] (f : α → β) (g : β → γ) (t : Tree κ α) (ht : t.Keys) :
    ∃ r, (t.convert f >>= Tree.convert g) = .ok r ∧ ∀ p, r.view p = (t.view p).map (View.map (g ∘ f)) := by
  obtain ⟨r, h1, h2⟩ := C90_convert f t ht
  obtain ⟨q, h3, h4⟩ := C90_convert g r (Tree.convert_keys f t ht r h1)
  refine ⟨q, by rw [h1]; exact h3, fun p => ?_⟩
  rw [h4, h2, Option.map_map]
  congr 1
  funext v
  cases v <;> rfl

mutual
/-- Every leaf is an array or a tensor, every container can be rebuilt from an iterable. -/
def Tree.Batch : Tree κ (MbLeaf α β) → Prop
  | .leaf (.arr _) => True
  | .leaf (.tensor _) => True
  | .leaf .num => False
  | .leaf .str => False
  | .seq t cs => t ≠ opaqueTag ∧ Tree.BatchL cs
  | .dict es => Tree.BatchD es
def Tree.BatchL : List (Tree κ (MbLeaf α β)) → Prop
  | [] => True
  | c :: cs => c.Batch ∧ Tree.BatchL cs
def Tree.BatchD : List (κ × Tree κ (MbLeaf α β)) → Prop
  | [] => True
  | (_, c) :: es => c.Batch ∧ Tree.BatchD es
end

/-- The device array for one leaf. -/
def MbLeaf.value {α β γ : Type} (put : α → γ) (numpy : β → α) : MbLeaf α β → Option γ
  | .arr a => some (put a)
  | .tensor b => some (put (numpy b))
  | _ => none

/-- C90: `minibatch_to` succeeds exactly on nested containers of arrays and tensors; the result has the same containers, in the same
order, with every leaf converted exactly once. -/
theorem C90_minibatch (put : α → γ) (numpy : β → α) (t : Tree κ (MbLeaf α β)) :
    (t.Batch → ∃ r, minibatchTo put numpy t = .ok r ∧ r.map some = t.map (MbLeaf.value put numpy)) ∧
    (¬ t.Batch → ∃ e, minibatchTo put numpy t = .error e) := by
  induction t using Tree.ind with
  | hl a => cases a <;> simp [Tree.Batch, minibatchTo, Tree.map, MbLeaf.value]
  | hs tg cs ih =>
    have H : (Tree.BatchL cs → ∃ r, minibatchToL put numpy cs = .ok r ∧ Tree.mapL some r = Tree.mapL (MbLeaf.value put numpy) cs) ∧
        (¬ Tree.BatchL cs → ∃ e, minibatchToL put numpy cs = .error e) := by
      induction cs with
      | nil => exact ⟨fun _ => ⟨[], rfl, rfl⟩, fun h => absurd trivial h⟩
      | cons c cs IH =>
        obtain ⟨a1, a2⟩ := ih c (by simp)
        obtain ⟨b1, b2⟩ := IH fun c hc => ih c (mem_cons_of_mem _ hc)
        constructor
        · rintro ⟨h1, h2⟩
          obtain ⟨r, r1, r2⟩ := a1 h1
          obtain ⟨rs, s1, s2⟩ := b1 h2
          exact ⟨r :: rs, by simp only [minibatchToL, r1, s1]; rfl, by simp only [Tree.mapL, r2, s2]⟩
        · intro h
          by_cases h1 : c.Batch
          · obtain ⟨r, r1, r2⟩ := a1 h1
            obtain ⟨e, he⟩ := b2 fun h2 => h ⟨h1, h2⟩
            exact ⟨e, by simp only [minibatchToL, r1, he]; rfl⟩
          · obtain ⟨e, he⟩ := a2 h1
            exact ⟨e, by simp only [minibatchToL, he]; rfl⟩
    constructor
    · rintro ⟨h1, h2⟩
      obtain ⟨rs, s1, s2⟩ := H.1 h2
      exact ⟨.seq tg rs, by simp only [minibatchTo, s1]; exact if_neg h1, by simp only [Tree.map, s2]⟩
    · intro h
      by_cases h2 : Tree.BatchL cs
      · obtain ⟨rs, s1, s2⟩ := H.1 h2
        have h1 : tg = opaqueTag := by
          by_contra h1
          exact h ⟨h1, h2⟩
        exact ⟨.type, by simp only [minibatchTo, s1]; exact if_pos h1⟩
      · obtain ⟨e, he⟩ := H.2 h2
        exact ⟨e, by simp only [minibatchTo, he]; rfl⟩
  | hd es ih =>
    have H : (Tree.BatchD es → ∃ r, minibatchToD put numpy es = .ok r ∧ Tree.mapD some r = Tree.mapD (MbLeaf.value put numpy) es) ∧
        (¬ Tree.BatchD es → ∃ e, minibatchToD put numpy es = .error e) := by
      induction es with
      | nil => exact ⟨fun _ => ⟨[], rfl, rfl⟩, fun h => absurd trivial h⟩
      | cons c cs IH =>
        obtain ⟨k, c⟩ := c
        obtain ⟨a1, a2⟩ := ih (k, c) (by simp)
        obtain ⟨b1, b2⟩ := IH fun c hc => ih c (mem_cons_of_mem _ hc)
        simp only at a1 a2
        constructor
        · rintro ⟨h1, h2⟩
          obtain ⟨r, r1, r2⟩ := a1 h1
          obtain ⟨rs, s1, s2⟩ := b1 h2
          exact ⟨(k, r) :: rs, by simp only [minibatchToD, r1, s1]; rfl, by simp only [Tree.mapD, r2, s2]⟩
        · intro h
          by_cases h1 : c.Batch
          · obtain ⟨r, r1, r2⟩ := a1 h1
            obtain ⟨e, he⟩ := b2 fun h2 => h ⟨h1, h2⟩
            exact ⟨e, by simp only [minibatchToD, r1, he]; rfl⟩
          · obtain ⟨e, he⟩ := a2 h1
            exact ⟨e, by simp only [minibatchToD, he]; rfl⟩
    constructor
    · intro h2
      obtain ⟨rs, s1, s2⟩ := H.1 h2
      exact ⟨.dict rs, by simp only [minibatchTo, s1]; rfl, by simp only [Tree.map, s2]⟩
    · intro h
      obtain ⟨e, he⟩ := H.2 h
      exact ⟨e, by simp only [minibatchTo, he]; rfl⟩

/-- A batch `((x, {1: t, 0: y}))` has distinct keys and is converted. -/
example : (Tree.seq 1 [.leaf (.arr 5), .dict [(1, .leaf (.tensor 7)), (0, .leaf (.arr 2))]] : Tree ℕ (MbLeaf ℕ ℕ)).Keys ∧
    (Tree.seq 1 [.leaf (.arr 5), .dict [(1, .leaf (.tensor 7)), (0, .leaf (.arr 2))]] : Tree ℕ (MbLeaf ℕ ℕ)).Batch := by
  simp [Tree.Keys, Tree.KeysL, Tree.KeysD, Tree.Batch, Tree.BatchL, Tree.BatchD, opaqueTag]

end Verif
