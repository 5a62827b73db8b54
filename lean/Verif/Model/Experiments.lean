import Verif.Model.Rep

/-!
# The group a training script builds its network for

`makeTrainer` of `experiments/train_regression.py` (the same statement is in `hnn.py` and `neuralode.py`).  Dictionaries are objects with
an address; of a configuration only the entry `'group'` matters here.
-/
namespace Verif

/-- The entry `'group'` of each dictionary; `none` is Python's `None`. -/
abbrev Configs (γ : Type) := ℕ → Option γ

/-- The address of the dictionary in `makeTrainer.__kwdefaults__['net_config']`, created once, when the function is defined,
train_regression.py:22. -/
def defaultConfig : ℕ := 0

/-- A call of `makeTrainer`: the dictionary passed as `net_config`, if any, and the symmetry of the dataset. -/
structure TrainerCall (γ : Type) where
  config : Option ℕ
  symmetry : γ

/-- The group the network is built with, and the dictionaries afterwards, train_regression.py:34-35. -/
def makeTrainerGroup {γ : Type} (h : Configs γ) (c : TrainerCall γ) : γ × Configs γ :=
  let a := c.config.getD defaultConfig
  match h a with
  | none => (c.symmetry, fun b => if b = a then some c.symmetry else h b)
  | some g => (g, h)

/-- The groups of a sequence of calls in one Python process. -/
def makeTrainers {γ : Type} (h : Configs γ) : List (TrainerCall γ) → List γ
  | [] => []
  | c :: cs => (makeTrainerGroup h c).1 :: makeTrainers (makeTrainerGroup h c).2 cs

end Verif
