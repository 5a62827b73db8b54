import Verif.Model.Experiments
import Mathlib.Data.List.GetD

/-!
# C99: the group a training script builds its network for
-/
namespace Verif
open List

variable {γ : Type}

/-- The dictionary used by a call. -/
def TrainerCall.address (c : TrainerCall γ) : ℕ := c.config.getD defaultConfig

/-- **C99, histories.** In any sequence of calls the group of the network is the one in the dictionary at the start if there is one, and otherwise the
symmetry of the dataset of the *first* call that used the same dictionary. -/
theorem C99_history (h : Configs γ) (calls : List (TrainerCall γ)) (n : ℕ) (hn : n < calls.length) :
    ∃ f, f ≤ n ∧ ∃ hf : f < calls.length, calls[f].address = calls[n].address ∧ (∀ m (hm : m < f), calls[m].address ≠ calls[n].address) ∧
      (makeTrainers h calls)[n]? = some ((h calls[n].address).getD calls[f].symmetry) := by
  induction calls generalizing h n with
  | nil => exact absurd hn (by simp)
  | cons c cs ih =>
    have hsame : ∀ b, b ≠ c.address → (makeTrainerGroup h c).2 b = h b := by
      intro b hb
      unfold makeTrainerGroup
      dsimp only
      split
      · exact if_neg hb
      · rfl
    have hself : (makeTrainerGroup h c).2 c.address = some ((h c.address).getD c.symmetry) := by
      unfold makeTrainerGroup
      dsimp only
      split
      · next h0 =>
        show (if c.address = c.address then _ else _) = _
        rw [if_pos rfl, show h c.address = none from h0]
        rfl
      · next g h0 => exact (show h c.address = some g from h0).trans (by rw [show h c.address = some g from h0]; rfl)
    have hgrp : (makeTrainerGroup h c).1 = (h c.address).getD c.symmetry := by
      unfold makeTrainerGroup
      dsimp only
      split
      · next h0 => rw [show h c.address = none from h0]; rfl
      · next g h0 => rw [show h c.address = some g from h0]; rfl
    cases n with
    | zero =>
      refine ⟨0, le_refl _, by simp, rfl, fun m hm => absurd hm (by omega), ?_⟩
      rw [makeTrainers, hgrp]
      rfl
    | succ n =>
      have hn' : n < cs.length := by simpa using hn
      obtain ⟨f, h1, h2, h3, h4, h5⟩ := ih (makeTrainerGroup h c).2 n hn'
      rw [makeTrainers, getElem?_cons_succ, getElem_cons_succ, h5]
      by_cases hc : c.address = cs[n].address
      · refine ⟨0, by omega, by simp, hc, fun m hm => absurd hm (by omega), ?_⟩
        rw [← hc, hself]
        rfl
      · refine ⟨f + 1, by omega, by simpa using h2, h3, fun m hm => ?_, ?_⟩
        · cases m with
          | zero => exact hc
          | succ m => exact h4 m (by omega)
        · rw [hsame _ (Ne.symm hc)]
          rfl

/-- **C99, what holds.** The network is built for the symmetry of its own dataset if the dictionary has no group and no earlier call of the process used
it; missing: calls that share a dictionary, such as all calls that leave `net_config` at its default. -/
theorem C99_own_symmetry_partial (h : Configs γ) (calls : List (TrainerCall γ)) (n : ℕ) (hn : n < calls.length) (h0 : h calls[n].address = none)
    (hfresh : ∀ m (hm : m < n), calls[m].address ≠ calls[n].address) : (makeTrainers h calls)[n]? = some calls[n].symmetry := by
  obtain ⟨f, h1, h2, h3, -, h5⟩ := C99_history h calls n hn
  rcases Nat.eq_or_lt_of_le h1 with rfl | h1
  · rw [h5, h0]
    rfl
  · exact absurd h3 (hfresh f h1)

/-- **C99, explicit groups.** A call with a dictionary that names a group gets that group, whatever the dataset. -/
theorem C99_explicit (h : Configs γ) (calls : List (TrainerCall γ)) (n : ℕ) (hn : n < calls.length) (g : γ) (h0 : h calls[n].address = some g) :
    (makeTrainers h calls)[n]? = some g := by
  obtain ⟨f, h1, h2, h3, h4, h5⟩ := C99_history h calls n hn
  rw [h5, h0]
  rfl

/-- **C99, counterexample.** After a call with the default configuration, every later call with the default configuration builds a network for the
symmetry of the first dataset, so that the network of a dataset with another symmetry has the wrong group. -/
theorem C99_counterexample_default (h : Configs γ) (h0 : h defaultConfig = none) (s t : γ) (hst : s ≠ t) :
    makeTrainers h [⟨none, s⟩, ⟨none, t⟩] = [s, s] ∧ makeTrainers h [⟨none, s⟩, ⟨none, t⟩] ≠ [s, t] ∧
    makeTrainers h [⟨none, t⟩] = [t] := by
  have e1 : makeTrainers h [⟨none, s⟩, ⟨none, t⟩] = [s, s] := by
    simp [makeTrainers, makeTrainerGroup, h0]
  refine ⟨e1, ?_, by simp [makeTrainers, makeTrainerGroup, h0]⟩
  rw [e1]
  simpa using hst

/-- `O(3)` for the second call, though its dataset has the symmetry `O(5)`; the third call brings its own dictionary. -/
example : makeTrainers (fun _ => none) [⟨none, "O(3)"⟩, ⟨none, "O(5)"⟩, ⟨some 1, "O(5)"⟩] = ["O(3)", "O(3)", "O(5)"] := by
  simp [makeTrainers, makeTrainerGroup, defaultConfig]

/-- Hypotheses of `C99_own_symmetry_partial`: the third of these calls. -/
example : (makeTrainers (fun _ => none) [⟨none, "O(3)"⟩, ⟨none, "O(5)"⟩, ⟨some 1, "O(5)"⟩])[2]? = some "O(5)" :=
  C99_own_symmetry_partial _ _ 2 (by simp) rfl fun m hm => by
    have : m = 0 ∨ m = 1 := by omega
    rcases this with rfl | rfl <;> simp [TrainerCall.address, defaultConfig]

end Verif
