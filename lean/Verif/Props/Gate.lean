import Verif.Lemmas.Gate
import Verif.Props.ExampleInterp

/-!
# Gates (C33, C34, C35)
-/
namespace Verif
open List
variable {W : World} {g : Gid} {N : ℕ} {x : Option Gid}

/-- C33: `gated(rep)` returns a representation of the same group that acts on its first `rep.size()` coordinates as `rep`, and
trivially on the appended ones, one for each summand that is neither `Scalar` nor a permutation representation. -/
theorem C33_gated (hW : W.SingleOK g N) (hx : SgOK W g x) {r : Rep} (hr : r.Over W g N) :
    ∃ r' y, gated W r x = .ok (r', y) ∧ SgOK W g y ∧ r'.Over W g N ∧ r'.size W = r.size W + r.gates W ∧
      ∀ (R : Type) [CommRing R] (I : Interp R), I.Sized W → r'.mat I = DMat.bdiag2 (r.mat I) (DMat.one (r.gates W)) := by
  obtain ⟨r', y, h1, h2, h3, h4, -, h5⟩ := gated_spec hW hx hr
  exact ⟨r', y, h1, h2, h3, h4, h5⟩

/-- `Scalar + 2V` of group `0`, in canonical order -/
def exS : SRep := ⟨[(.scalar, 1), (.fac (.atom (.vec 0 (some 0))), 2)], range 7⟩

/-- `V + V²` of the permutation group `2`, in canonical order -/
def exP : SRep := ⟨[(.fac (.atom (.vec 0 (some 2))), 1), (.fac (.prod ⟨[(.vec 0 (some 2), 2)], range 9⟩), 1)], range 12⟩

theorem exS_key {N : ℕ} (hN : 7 ≤ N) : ∀ k ∈ (Rep.sum exS).keys exW, exW.Single 0 N k := by
  intro k hk
  simp [Rep.keys, exS, Counter.keys] at hk
  rcases hk with rfl | rfl
  · exact ⟨le_trans (by decide) hN, trivial⟩
  · exact ⟨le_trans (by decide) hN, .inl ⟨rfl, 0, rfl⟩, by decide⟩

theorem exS_over {N : ℕ} (hN : 7 ≤ N) : (Rep.sum exS).Over exW 0 N where
  wf := ⟨⟨by simp [exS], World.Single.st (exW_single 0 N (by omega)) _ (exS_key hN), by decide +kernel, by decide⟩, by
      intro k hk
      simp [exS, Counter.keys] at hk
      rcases hk with rfl | rfl <;> exact ⟨by first | trivial | rfl, rfl⟩, Perm.refl _⟩
  key := exS_key hN

example : ∃ r', gated exW (.sum exS) none = .ok (r', some 0) ∧ r'.size exW = 9 := ⟨_, rfl, by decide +kernel⟩

/-- C34: in a sum in canonical order the channels of a `Scalar` or permutation summand are gated by themselves, those of the
`j`-th other summand by coordinate `size+j`; all indices lie within `gated(rep)`. -/
theorem C34_gate_indices_partial {s : SRep} (h : s.WF W) (hc : s.perm = range (s.size W)) :
    ∃ ids, gateIndices W (.sum s) = .ok (.ints ids) ∧ ids.length = s.size W ∧
      (∀ j ∈ ids, j < s.size W + (Rep.sum s).gates W) ∧
      ∀ pre k post, s.c.expand = pre ++ k :: post → ∀ a < k.size W,
        (k.Gated W → ids[(pre.map (Key.size W)).sum + a]? = some (s.size W + gatesOf W pre)) ∧
        (¬ k.Gated W → ids[(pre.map (Key.size W)).sum + a]? = some ((pre.map (Key.size W)).sum + a)) := by
  have hz : (s.c.expand.map (Key.size W)).sum = s.size W := by rw [sum_map_expand]; rfl
  have hcan : s.canonical = true := by
    unfold SRep.canonical
    rw [beq_iff_eq, length_of_perm_range h.perm, hc]
  refine ⟨_, gateIndices_ok h hcan, by rw [gateList_length, hz], fun j hj => ?_, fun pre k post he a ha => ?_⟩
  · have := gateList_lt _ _ _ _ (by rw [hz]; omega) j hj
    rw [Rep.WF.gates (r := .sum s) h]
    simpa [Rep.summands] using this
  · have hks : ∀ j ∈ pre ++ k :: post, j.WF W := by
      rw [← he]; exact Rep.WF.summands (r := .sum s) h
    have hpre := gatesOf_eq (W := W) pre fun j hj => hks j (by simp [hj])
    have hgk := Key.needsGate_iff (W := W) (hks k (by simp))
    rw [he, gateList_append, hpre]
    rw [getElem?_append_right (by rw [gateList_length]; omega), gateList_length, Nat.add_sub_cancel_left, zero_add, zero_add]
    simp only [gateList]
    split_ifs with hg
    · refine ⟨fun _ => ?_, fun h' => absurd (hgk.1 hg) h'⟩
      rw [getElem?_append_left (by simpa using ha), getElem?_replicate, if_pos ha]
    · refine ⟨fun h' => absurd (hgk.2 h') hg, fun _ => ?_⟩
      rw [getElem?_append_left (by simpa using ha), getElem?_range' ha, Nat.one_mul]

/-- C34: the function raises `AssertionError` on a sum that is not in canonical order (`lru_cache` hashes the argument). -/
theorem C34_not_canonical {s : SRep} (h : s.WF W) (hc : s.perm ≠ range (s.size W)) : gateIndices W (.sum s) = .error .assertion := by
  have hcan : ¬ s.canonical = true := by
    unfold SRep.canonical
    rw [beq_iff_eq, length_of_perm_range h.perm]; exact hc
  show (if s.canonical = true then _ else Except.error PyErr.assertion) = _
  rw [if_neg hcan]

/-- C34: `V + Scalar`, for instance, is such a sum. -/
theorem C34_vector_plus_scalar : ∃ r, Rep.add exW (.key (.fac (.atom (.vec 0 (some 0))))) (.key .scalar) = .ok r ∧
    gateIndices exW r = .error .assertion := ⟨_, rfl, by decide +kernel⟩

example : gateIndices exW (.sum exS) = .ok (.ints [0, 7, 7, 7, 8, 8, 8]) := by decide +kernel

example : gateIndices exW (.sum exP) = .ok (.ints (range 12)) := by decide +kernel

section
variable {R : Type} [CommRing R]

/-- C35: for every function in place of the sigmoid, the gated nonlinearity of a sum in canonical order maps `ρ_gated(g)x` to
`ρ(g)` applied to the output for `x`, if the groups flagged `is_permutation` act by permutation matrices. -/
theorem C35_gated_nonlinearity_partial (hW : W.SingleOK g N) (hx : SgOK W g x) {s : SRep} (hs : (Rep.sum s).Over W g N)
    (hc : s.perm = range (s.size W)) {r' : Rep} {y : Option Gid} (hr' : gated W (.sum s) x = .ok (r', y)) (act : R → R)
    {I : Interp R} (hI : I.Dual W) (hp : ∀ h, W.isPerm h = true → IsPermMat (W.asize 0 h) (I.vec 0 (some h)).sem) :
    Commutes (r'.size W) (s.size W) (gatedNonlinearity W act (.sum s)) (r'.mat I) ((Rep.sum s).mat I) := by
  exact gatedNonlinearity_commutes hW hx hs hc hr' act hI hp

/-- C35: a single representation that is not a product raises `AttributeError`; a product that is not a permutation
representation raises because the array of gate indices is not an array of integers. -/
theorem C35_single (act : R → R) (v : List R) :
    (∀ a : Atom, gatedNonlinearity W act (.key (.fac (.atom a))) v = .error .attribute) ∧
    (∀ p : PRep, p.isPerm W = false → ∃ e, gatedNonlinearity W act (.key (.fac (.prod p))) v = .error e) := by
  refine ⟨fun a => rfl, fun p hp => ?_⟩
  by_cases hc : permCanonical p.perm = true
  · refine ⟨.type, ?_⟩
    simp only [gatedNonlinearity, gateIndices, hc, hp]
    rfl
  · refine ⟨.assertion, ?_⟩
    simp only [gatedNonlinearity, gateIndices, hc]
    rfl

end

theorem exI_perm (t : ℤ) : ∀ h, exW.isPerm h = true → IsPermMat (exW.asize 0 h) ((exI t).vec 0 (some h)).sem := by
  intro h hh
  have : h = 2 := by simpa [exW] using hh
  subst this
  exact ⟨range 3, Perm.refl _, (DMat.permMat_range 3).symm⟩

example (act : ℤ → ℤ) : ∃ r' y, gated exW (.sum exS) none = .ok (r', y) ∧ r'.size exW = 9 ∧
    Commutes 9 7 (gatedNonlinearity exW act (.sum exS)) (r'.mat (exI 5)) ((Rep.sum exS).mat (exI 5)) :=
  ⟨_, _, rfl, by decide +kernel,
    C35_gated_nonlinearity_partial (exW_single 0 10 (by decide)) (x := none) (fun _ h => by simp at h) (exS_over (by decide)) rfl rfl act (exI_dual 5) (exI_perm 5)⟩

end Verif
