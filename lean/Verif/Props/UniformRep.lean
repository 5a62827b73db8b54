import Verif.Lemmas.UniformOne

/-!
# C37, C38: allocating channels to tensor types
-/
namespace Verif
open List

/-- **C38.** For `d ≥ 1` the loop of `lambertW(ch,d)` ends (within `max(ch,0)+1` rounds) and the result is the largest rank `r`
with `(r+1)d^r ≤ ch`, or `-1` if there is none. -/
theorem C38_lambertW {d : ℕ} (hd : 1 ≤ d) (ch : ℤ) {fuel : ℕ} (h0 : 0 < fuel) (hf : ch < fuel) :
    ∃ w : ℤ, lambertW fuel ch d = some w ∧ -1 ≤ w ∧ ∀ r : ℕ, (r : ℤ) ≤ w ↔ (((r + 1) * d ^ r : ℕ) : ℤ) ≤ ch := by
  obtain ⟨w, h1, h2⟩ := lambertLoop_spec (ch := ch) hd fuel 0 (by omega) (by omega) (by simp)
  refine ⟨(w : ℤ) - 1, by rw [lambertW, h1]; rfl, by omega, fun r => ?_⟩
  rw [← h2 r]; omega

/-- The same, read as a maximum. -/
theorem C38_largest {d : ℕ} (hd : 1 ≤ d) (ch : ℤ) {fuel : ℕ} (h0 : 0 < fuel) (hf : ch < fuel) :
    (lambertW fuel ch d = some (-1) ∧ ∀ r : ℕ, ch < (((r + 1) * d ^ r : ℕ) : ℤ)) ∨
    ∃ w : ℕ, lambertW fuel ch d = some w ∧ IsGreatest {r : ℕ | (((r + 1) * d ^ r : ℕ) : ℤ) ≤ ch} w := by
  obtain ⟨w, h1, h2, h3⟩ := C38_lambertW hd ch h0 hf
  rcases Int.lt_or_le w 0 with h | h
  · left
    obtain rfl : w = -1 := by omega
    refine ⟨h1, fun r => ?_⟩
    by_contra hc
    have := (h3 r).2 (by omega)
    omega
  · right
    obtain ⟨n, rfl⟩ := Int.eq_ofNat_of_zero_le h
    refine ⟨n, h1, (h3 n).1 le_rfl, fun r hr => ?_⟩
    have := (h3 r).2 hr
    omega

/-- With `d = 0` (which no group has) and `ch ≥ 1` the loop never ends: `(r+1)·0^r ≤ ch` for every `r`. -/
theorem C38_zero_diverges {ch : ℤ} (hch : 1 ≤ ch) (fuel : ℕ) : lambertW fuel ch 0 = none := by
  rw [lambertW, lambertLoop_zero hch]; rfl

example : lambertW 400 384 3 = some 3 := by decide +kernel
example : lambertW 400 0 3 = some (-1) := by decide +kernel

/-- **C37.** For a group of dimension at least 2 and any outcome of the random draws, `uniform_rep(ch,G)` terminates
(within `ch+1` rounds of each loop) and returns a representation of `G` of size exactly `ch`; for `ch ≥ 2` it is a direct
sum in canonical order, which is what the gated nonlinearity needs. -/
theorem C37_uniform_ge_two {W : World} {g : Gid} {N : ℕ} (hW : W.SingleOK g N) (hd : 2 ≤ W.d g) (hdN : W.d g ≤ N)
    {draw : ℕ → ℕ → List ℕ} (hdraw : ∀ rank n, (draw rank n).length = n ∧ ∀ p ∈ draw rank n, p ≤ rank)
    {ch fuel : ℕ} (hch : 1 ≤ ch) (hN : ch ≤ N) (hf : ch < fuel) {sg : Option Gid} (hs : SgOK W g sg) :
    ∃ r sg', uniformRep W draw fuel ch g sg = .ok (r, sg') ∧ SgOK W g sg' ∧ r.Over W g N ∧ r.size W = ch ∧ (2 ≤ ch → r.CanonicalSum W) := by
  obtain ⟨r, sg', h1, h2, h3, h4, h5, h6⟩ := uniformRep_runs hW hd hdN hdraw hch hN hf sg hs
  refine ⟨r, sg', h1, h2, h3, h4, fun h => ?_⟩
  obtain ⟨s, rfl⟩ := h6 h
  exact ⟨s, rfl, by rw [Rep.base, Rep.sum.injEq] at h5; conv_lhs => rw [h5]⟩

/-- **C37 in dimension one**, where the order used for sorting summands does not separate `Scalar` from the other
representations (`C15_counterexample_dim1`): for any outcome of the draws, any hashes and any iteration order of sets,
`uniform_rep(ch,G)` returns a representation of `G` of size exactly `ch`, for `ch ≥ 2` a direct sum in canonical
order. -/
theorem C37_uniform_one {W : World} {g : Gid} (hd : W.d g = 1) {draw : ℕ → ℕ → List ℕ} (hdraw : ∀ rank n, (draw rank n).length = n)
    {ch fuel : ℕ} (hch : 1 ≤ ch) (hf : ch < fuel) (sg : Option Gid) :
    ∃ r sg', uniformRep W draw fuel ch g sg = .ok (r, sg') ∧ r.size W = ch ∧ (2 ≤ ch → r.CanonicalSum W) ∧
      ∀ k ∈ r.keys W, k = .scalar ∨ k.G? W = some (some g) := by
  obtain ⟨r, sg', h1, h2, h3, h4⟩ := uniformRep_runsAny hd hdraw hch hf sg
  refine ⟨r, sg', h1, h3, fun h => ?_, ?_⟩
  · obtain ⟨s, rfl, h5⟩ := h4 h
    exact ⟨s, rfl, by rw [h5]; congr 1; exact h3.symm⟩
  · have key : ∀ k : Key, k.UnitP g → k = .scalar ∨ k.G? W = some (some g) := by
      intro k hk
      cases k with
      | scalar => exact Or.inl rfl
      | fac f => exact Or.inr (by simp only [Key.G?]; rw [hk.1.G])
      | dprod d => cases hk
    intro k hk
    cases r with
    | key k' =>
      simp only [Rep.keys, mem_singleton] at hk
      subst hk
      cases k' with
      | scalar => exact Or.inl rfl
      | fac f => exact Or.inr (by simp only [Key.base, Key.G?]; rw [Fac.G_base, h2.1.G])
      | dprod d => cases h2
    | sum s => exact key k (h2.2 k hk)
    | dsum l => cases h2
    | dprod l => cases h2

/-- **C37.** `uniform_rep(ch,G)` with `d ≥ 1` and `ch ≥ 1` terminates (within `ch+1` rounds of each loop) and returns, for any
outcome of the random draws, a representation of size exactly `ch` all of whose summands are `Scalar` or
tensors of `G`; for `ch ≥ 2` it is a direct sum in canonical order. In dimension at least 2 there are to be no hash collisions. -/
theorem C37_uniform {W : World} {g : Gid} {N : ℕ} {sg : Option Gid} {ch fuel : ℕ} (hd : 1 ≤ W.d g)
    (hW : 2 ≤ W.d g → W.SingleOK g N ∧ W.d g ≤ N ∧ ch ≤ N ∧ SgOK W g sg)
    {draw : ℕ → ℕ → List ℕ} (hdraw : ∀ rank n, (draw rank n).length = n ∧ ∀ p ∈ draw rank n, p ≤ rank) (hch : 1 ≤ ch) (hf : ch < fuel) :
    ∃ r sg', uniformRep W draw fuel ch g sg = .ok (r, sg') ∧ r.size W = ch ∧ (2 ≤ ch → r.CanonicalSum W) ∧
      ∀ k ∈ r.keys W, k = .scalar ∨ k.G? W = some (some g) := by
  rcases Nat.lt_or_ge (W.d g) 2 with h | h
  · exact C37_uniform_one (by omega) (fun rank n => (hdraw rank n).1) hch hf sg
  · obtain ⟨w1, w2, w3, w4⟩ := hW h
    obtain ⟨r, sg', h1, -, h3, h4, h5⟩ := C37_uniform_ge_two w1 h w2 hdraw hch w3 hf w4
    refine ⟨r, sg', h1, h4, h5, fun k hk => ?_⟩
    by_cases hs : k = .scalar
    exacts [Or.inl hs, Or.inr ((h3.key k hk).G hs)]

/-- Seven channels for a group of dimension 1, such as `O(1)`, in an environment where `Scalar` and `V` are incomparable. -/
example : ∃ r sg', uniformRep { exW with d := fun _ => 1, hash := fun k => if k = .scalar then 0 else -1 } (fun _ n => replicate n 0) 8 7 0 none
    = .ok (r, sg') ∧ r.size { exW with d := fun _ => 1, hash := fun k => if k = .scalar then 0 else -1 } = 7 := by
  obtain ⟨r, sg', h1, h2, -⟩ := C37_uniform_one (W := { exW with d := fun _ => 1, hash := fun k => if k = .scalar then 0 else -1 }) (g := 0) rfl
    (draw := fun _ n => replicate n 0) (fun rank n => by simp) (ch := 7) (fuel := 8) (by decide) (by decide) none
  exact ⟨r, sg', h1, h2⟩

/-- One channel: `uniform_rep(1,G)` is the plain `Scalar`, not a direct sum. -/
theorem C37_one {W : World} {g : Gid} (hd : 1 ≤ W.d g) {draw : ℕ → ℕ → List ℕ} (hdraw : draw 0 0 = []) {fuel : ℕ} (hf : 2 ≤ fuel)
    (sg : Option Gid) : uniformRep W draw fuel 1 g sg = .ok (.key .scalar, some g) := by
  obtain ⟨fuel, rfl⟩ := Nat.exists_eq_add_of_le' hf
  have hl : ∀ f, lambertW (f + 2) 1 (W.d g) = some 0 := by
    intro f
    have : ¬ (((1 + 1) * W.d g ^ 1 : ℕ) : ℤ) ≤ 1 := by rw [pow_one]; push_cast; omega
    unfold lambertW
    rw [lambertLoop, if_pos (by simp), lambertLoop, if_neg this]
    rfl
  have hu : uniformLoop (W.d g) (fuel + 2) 1 [0] = some (.ok [1]) := by
    rw [uniformLoop]
    simp only [hl]
    simp [addPrefix, uniformLoop, Bind.bind, Except.bind]
  unfold uniformRep
  simp only [hl]
  have : replicate ((0 : ℤ) + 1).toNat 0 = [0] := rfl
  rw [this, hu]
  simp only [binomialAllocation, zipIdx_cons, zipIdx_nil, mapM_cons, mapM_nil]
  simp [hdraw]
  rfl

/-- No channel, or a negative number: `AttributeError`, since `sum` of nothing is the integer 0. -/
theorem C37_none {W : World} {g : Gid} {draw : ℕ → ℕ → List ℕ} {fuel : ℕ} (hf : 0 < fuel) {ch : ℤ} (hch : ch ≤ 0)
    (sg : Option Gid) : uniformRep W draw fuel ch g sg = .error .attribute := by
  obtain ⟨fuel, rfl⟩ := Nat.exists_eq_add_of_le' hf
  have hl : lambertW (fuel + 1) ch (W.d g) = some (-1) := by
    unfold lambertW
    rw [lambertLoop, if_neg (by simp; omega)]
    rfl
  have hu : uniformLoop (W.d g) (fuel + 1) ch [] = some (.ok []) := by
    rw [uniformLoop, if_neg (by omega)]
  unfold uniformRep
  simp only [hl]
  have : replicate ((-1 : ℤ) + 1).toNat 0 = [] := rfl
  rw [this, hu]
  rfl

/-- 10 channels for the rotations of space, with the draws all zero. -/
example : ∃ r sg', uniformRep exW (fun _ n => replicate n 0) 11 10 0 none = .ok (r, sg') ∧ r.size exW = 10 ∧ r.CanonicalSum exW := by
  obtain ⟨r, sg', h1, -, -, h4, h5⟩ := C37_uniform_ge_two (exW_single 0 10 (by decide)) (by decide) (by decide)
    (draw := fun _ n => replicate n 0) (fun rank n => ⟨by simp, fun p hp => by simp [mem_replicate] at hp; omega⟩)
    (ch := 10) (fuel := 11) (by decide) (by decide) (by decide) (sg := none) (fun h e => by cases e)
  exact ⟨r, sg', h1, h4, h5 (by decide)⟩

end Verif
