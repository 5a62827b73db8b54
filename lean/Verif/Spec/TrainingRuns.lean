import Verif.Model.Training

/-!
# What a training run should compute

Only the recursion of the optimizer over the minibatches, in their order, and means.
-/
namespace Verif
open List

section
variable {Θ σ γ β : Type}

/-- Optimization alone, without logging or epoch counters: for each pair of epoch and number of a minibatch, the gradient of the loss on this minibatch at the current
parameters goes to the optimizer, with the learning rate at the fraction of epochs done. -/
noncomputable def optimize (learner : Learner Θ σ γ) (lr : ℝ → ℝ) (loss : Θ → β → Py Fl) (batches : ℕ → ℕ → β) (S : ℕ) : List (ℕ × ℕ) → σ × Θ → Py (σ × Θ)
  | [], s => .ok s
  | (e, i) :: l, s =>
    match learner.gradvals (fun t => loss t (batches e i)) s.2 with
    | .error x => .error x
    | .ok g => optimize learner lr loss batches S l (learner.update (lr (e + i / S)) g.1 s)

/-- All `S` minibatches of each of the epochs, in order. -/
def passes (S : ℕ) (epochs : List ℕ) : List (ℕ × ℕ) := epochs.flatMap fun e => (range S).map fun i => (e, i)

/-- The number of epochs that a call at epoch `e` asks for. -/
def TrainCall.num (e : ℕ) : TrainCall → ℕ
  | .train n => n
  | .trainTo f => f - e

/-- The epochs that a sequence of calls at epoch `e` trains for.  A call for no epoch counts as one, but trains nothing (C87). -/
def epochsOf (e : ℕ) : List TrainCall → List ℕ
  | [] => []
  | c :: cs => List.range' e (c.num e) ++ epochsOf (e + max (c.num e) 1) cs

/-- The epoch after a sequence of calls that each ask for at least one more. -/
def finalEpoch (e : ℕ) : List TrainCall → Option ℕ
  | [] => some e
  | c :: cs => if c.num e = 0 then none else finalEpoch (e + c.num e) cs

/-- The mean; NaN if one of the values is. -/
noncomputable def averageFl (vs : List Fl) : Fl := if none ∈ vs then none else some ((vs.map fun v => v.getD 0).sum / vs.length)

end

end Verif
