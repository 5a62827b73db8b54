import Verif.Model.Samples

/-! # What can be sampled (specification) -/
namespace Verif

variable {𝕜 : Type*} [RCLike 𝕜] {d : ℕ}

/-- `h` is among the results of some call of `samples`. -/
def SampledBy (zs : Option (List ℝ)) (lie disc : List (Matrix (Fin d) (Fin d) 𝕜)) (h : Matrix (Fin d) (Fin d) 𝕜) : Prop :=
  ∃ (N : ℕ) (w : Draws), w.Meets N lie.length disc.length ∧ h ∈ samplesOf zs lie disc w

/-- The scale is absent, or has one nonzero factor for each infinitesimal generator. -/
def ScaleOK (zs : Option (List ℝ)) (D : ℕ) : Prop := ∀ s, zs = some s → s.length = D ∧ ∀ c ∈ s, c ≠ 0

/-- `h` is among the results of some call `G.samples(N)`. -/
def Grp.CanSample (G : Grp) (d : ℕ) (zs : Option (List ℝ)) (h : Matrix (Fin d) (Fin d) ℝ) : Prop :=
  ∃ (N : ℕ) (w : Draws), w.Meets N G.lie.length G.disc.length ∧ h ∈ G.samples d zs w

/-- `h` is among the results of some call `G.samples(N)` in which the discrete generators are taken in the orders `o` (one for each round). -/
def Grp.CanSampleIn (G : Grp) (d : ℕ) (zs : Option (List ℝ)) (o : List (List ℕ)) (h : Matrix (Fin d) (Fin d) ℝ) : Prop :=
  ∃ (N : ℕ) (w : Draws), w.Meets N G.lie.length G.disc.length ∧ w.orders = o ∧ h ∈ G.samples d zs w

/-- Three orders of `M` generators, as `jax.random.permutation` returns. -/
def OrdersOK (M : ℕ) (o : List (List ℕ)) : Prop := o.length = 3 ∧ ∀ x ∈ o, x.Perm (List.range M)

end Verif
