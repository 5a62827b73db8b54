import Verif.Model.GroupInit

/-!
# `Group.samples` and `Group.sample`

The draws of numpy and jax are arguments.  Real and complex arithmetic is exact.
-/
namespace Verif

/-- What one call `samples(N)` draws, groups.py:73-77 and 119, 123-124: `np.random.randn(N,D)`, `np.random.randint(-5,5,size=(N,M,3))` and,
through `np.random.randint(100)` and `jax.random.permutation`, one order of the `M` discrete generators for each of the three rounds.  The
seed is not mapped over by `vmap`, so the orders are the same for all `N` samples. -/
structure Draws where
  z : List (List ℝ)
  ks : List (List (List ℤ))
  orders : List (List ℕ)

/-- The draws have the shapes and ranges of lines 73-77 for `D` infinitesimal and `M` discrete generators. -/
structure Draws.Meets (w : Draws) (N D M : ℕ) : Prop where
  z : w.z.length = N ∧ ∀ z ∈ w.z, z.length = D
  ks : w.ks.length = N ∧ ∀ k ∈ w.ks, k.length = M ∧ ∀ l ∈ k, l.length = 3 ∧ ∀ a ∈ l, -5 ≤ a ∧ a < 5
  orders : w.orders.length = 3 ∧ ∀ o ∈ w.orders, o.Perm (List.range M)

/-- `z *= self.z_scale` unless it is `None`, groups.py:74-75 (one row of `z`). -/
def scaleNoise (zs : Option (List ℝ)) (z : List ℝ) : List ℝ :=
  match zs with
  | none => z
  | some s => List.zipWith (· * ·) z s

section
variable {𝕜 : Type*} [RCLike 𝕜] {d : ℕ}

/-- `Group.samples(N)`, groups.py:69-78, with `noise2samples`, 129-131; `lie` and `disc` are the dense generators (lines 71-72). -/
noncomputable def samplesOf (zs : Option (List ℝ)) (lie disc : List (Matrix (Fin d) (Fin d) 𝕜)) (w : Draws) : List (Matrix (Fin d) (Fin d) 𝕜) :=
  List.zipWith (fun z k => noise2sample (scaleNoise zs z) k lie disc w.orders) w.z w.ks

end

/-- `G.samples(N)` for a group object of dimension `d`. -/
noncomputable def Grp.samples (G : Grp) (d : ℕ) (zs : Option (List ℝ)) (w : Draws) : List (Matrix (Fin d) (Fin d) ℝ) :=
  samplesOf zs (G.lie.map (denseGen d)) (G.disc.map (denseGen d)) w

/-- `G.sample()`, groups.py:65-67. -/
noncomputable def Grp.sample (G : Grp) (d : ℕ) (zs : Option (List ℝ)) (w : Draws) : Py (Matrix (Fin d) (Fin d) ℝ) :=
  match G.samples d zs w with
  | h :: _ => .ok h
  | [] => .error .index

/-- The `z_scale` of `SO13p`, `SO13` and `O13`, groups.py:201. -/
noncomputable def lorentzScale : List ℝ := [0.3, 0.3, 0.3, 1, 1, 1]

end Verif
