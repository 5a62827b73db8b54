import Verif.Model.DiskCache

/-!
# Contracts and vocabulary for C105
-/
namespace Verif
variable {α : Type}

/-- `torch.load` recovers what `torch.save` has written, and fails for a file that is cut off. -/
structure Codec.OK (c : Codec α) : Prop where
  round : ∀ x, c.dec (c.enc x) = .ok x
  torn : ∀ x b, b <+: c.enc x → b ≠ c.enc x → ∃ e, c.dec b = .error e

/-- A finished or killed construction. -/
def DsPc.Over : DsPc α → Prop
  | .done _ => True
  | .killed => True
  | _ => False

/-- The constructions of a file. -/
def DsCall.For (home f : String) (k : DsCall α) : Prop := k.args.filename home = f

/-- An event that lets construction `i` take a step. -/
def DsEvent.isStep (i : ℕ) : DsEvent α → Bool
  | .step j => i = j
  | _ => false

/-- The number of steps of construction `i` in a schedule. -/
def dsSteps (i : ℕ) (l : List (DsEvent α)) : ℕ := (l.filter (DsEvent.isStep i)).length

/-- A value formatted by an f-string without an underscore, e.g. a number. -/
def NoUnderscore (s : String) : Prop := '_' ∉ s.toList

end Verif
