import Verif.Lemmas.RepDist

/-! The factors of a product are those of the operands. -/
namespace Verif
open List
variable {W : World}

theorem Fac.letters_eq (f : Fac) : f.letters = f.counter.expand := by
  cases f <;> rfl

theorem prodCompute_expand {cs : List (Counter Atom)} {ps : List (List ℕ)}
    (hcn : ∀ c ∈ cs, c.keys.Nodup) : (prodCompute W cs ps).1.expand ~ cs.flatMap Counter.expand := by
  have hu := nodup_unionKeys W hcn
  have hsp : W.sorted (Atom.lt W) (unionKeys W.setOrder cs) ~ unionKeys W.setOrder cs := W.sorted_perm _ _
  have hk : ∀ c ∈ cs, ∀ k ∈ c.keys, k ∈ W.sorted (Atom.lt W) (unionKeys W.setOrder cs) := fun c hc k hk =>
    hsp.mem_iff.2 ((mem_unionKeys W).2 ⟨c, hc, hk⟩)
  have h1 := prodMerge_expand (W.sorted (Atom.lt W) (unionKeys W.setOrder cs)) cs hcn
  have h2 := (labAxes_perm _ (hsp.nodup_iff.2 hu) cs hk).map Prod.fst
  show (prodMerge cs (axisIds 0 cs) _).1.expand ~ _
  rw [h1]
  simpa [zipIdx_map_fst, allKeys] using h2

theorem mkProd_expand {ops : List Fac} (h : ∀ r ∈ ops, r.WF W) {p : PRep}
    (hs : p.c = (prodCompute W (ops.map Fac.counter) (ops.map (Fac.permOf W))).1) :
    p.c.expand ~ ops.flatMap Fac.letters := by
  rw [hs]
  refine (prodCompute_expand ?_).trans ?_
  · intro c hc
    obtain ⟨r, hr, rfl⟩ := mem_map.1 hc
    exact Fac.counter_nodup (h r hr)
  · rw [flatMap_map]
    apply Perm.of_eq
    exact flatMap_congr fun r _ => (Fac.letters_eq r).symm

/-- There is at least one factor. -/
theorem Fac.letters_length {f : Fac} (h : f.WF W) : 1 ≤ f.letters.length := by
  match f, h with
  | .atom a, _ => simp [Fac.letters]
  | .prod p, h =>
    have h : p.WF W := h
    obtain ⟨kc, t, hc⟩ := exists_cons_of_ne_nil h.cnt.ne
    have hp := h.cnt.pos kc (by simp [hc])
    simp only [Fac.letters]
    rw [hc]
    simp only [Counter.expand, flatMap_cons, length_append, length_replicate]
    omega

end Verif
