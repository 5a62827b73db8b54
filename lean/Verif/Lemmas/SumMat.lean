import Verif.Lemmas.SumCanon
import Verif.Lemmas.Dense

namespace Verif
open List NdArr

variable {K : Type*} [DecidableEq K] {size : K → ℕ} {R : Type*} [Zero R]

/-- An operand of a sum: its counter, its ordering and the matrix it stands for. -/
structure SumArg (K R : Type*) [Zero R] where
  c : Counter K
  p : List ℕ
  D : DMat R

/-- The operand's matrix is the block-diagonal matrix of its counter, in the order `p`. -/
structure SumArg.OK (size : K → ℕ) (mat : K → DMat R) (a : SumArg K R) : Prop where
  perm : a.p ~ range (a.c.sumSize size)
  sq : a.D.IsSq (a.c.sumSize size)
  pick : a.D.pick a.p a.p = DMat.bdiag (a.c.expand.map mat)
  mat : ∀ k ∈ a.c.keys, (mat k).IsSq (size k)

omit [DecidableEq K] in
theorem SumArg.OK.real {mat : K → DMat R} {a : SumArg K R} (h : a.OK size mat) :
    a.D.Real ((pcs size a.c.expand a.p).map fun kl => (mat kl.1, kl.2)) := by
  have hlen : a.p.length = (a.c.expand.map size).sum := by
    rw [length_of_perm_range h.perm, sum_map_expand]
  have hfl : ((pcs size a.c.expand a.p).map fun kl => (mat kl.1, kl.2)).flatMap (·.2) = a.p := by
    rw [flatMap_map]; exact pcs_flatten size _ _ hlen
  apply DMat.Real.of_pick
  · rw [hfl, h.sq.1]; exact h.perm
  · rw [h.sq.1, h.sq.2]
  · intro b hb
    obtain ⟨kl, hkl, rfl⟩ := mem_map.1 hb
    have h1 := pcs_length size _ _ hlen kl hkl
    simp only
    rw [h1]
    exact h.mat _ (Counter.mem_expand (pcs_fst_mem hkl))
  · rw [hfl, h.pick, map_map]
    have := pcs_fst size a.c.expand a.p
    conv_lhs => rw [← this]
    rw [map_map]; rfl

omit [DecidableEq K] in
theorem shiftOps_add (n m : ℕ) (cps : List (Counter K × List ℕ)) :
    shiftOps (n + m) cps = (shiftOps m cps).map fun cp => (cp.1, cp.2.map (n + ·)) := by
  induction cps generalizing m with
  | nil => rfl
  | cons a t ih =>
    simp only [shiftOps, map_cons, map_map, Function.comp_def, add_assoc]
    rw [← ih]

omit [DecidableEq K] in
theorem bdiag_real {mat : K → DMat R} (as : List (SumArg K R)) (h : ∀ a ∈ as, a.OK size mat) :
    (DMat.bdiag (as.map SumArg.D)).Real
      (((shiftOps 0 (as.map fun a => (a.c, a.p))).flatMap fun cp => pcs size cp.1.expand cp.2).map
        fun kl => (mat kl.1, kl.2)) := by
  induction as with
  | nil => exact DMat.Real.nil
  | cons a as ih =>
    have ha := h a (by simp)
    have := ha.real.bdiag2 (ih fun b hb => h b (by simp [hb]))
    simp only [map_cons, DMat.bdiag, shiftOps, flatMap_cons, map_append]
    convert this using 2
    · simp
    · have hl : a.p.length = a.D.rows := by rw [length_of_perm_range ha.perm, ha.sq.1]
      rw [zero_add, hl, show a.D.rows = a.D.rows + 0 from rfl, shiftOps_add, flatMap_map, map_map, map_flatMap, map_flatMap]
      apply flatMap_congr
      intro cp _
      simp only [pcs_map, map_map, Function.comp_def, add_zero]

/-- **Sum of representations**: if every operand is the block-diagonal matrix of its counter in the
order `p`, then the merged counter and ordering describe the block-diagonal matrix of the
operands. -/
theorem sumCanon_mat {u : List K} (hu : u.Nodup) {mat : K → DMat R} (as : List (SumArg K R))
    (h : ∀ a ∈ as, a.OK size mat) (hc : ∀ a ∈ as, Consistent u a.c) :
    let r := sumCanon size u (as.map SumArg.c) (as.map SumArg.p)
    r.2 ~ range (r.1.sumSize size) ∧
    (DMat.bdiag (as.map SumArg.D)).IsSq (r.1.sumSize size) ∧
    (DMat.bdiag (as.map SumArg.D)).pick r.2 r.2 = DMat.bdiag (r.1.expand.map mat) := by
  set cps := as.map fun a => (a.c, a.p) with hcps
  have e1 : as.map SumArg.c = cps.map (·.1) := by simp [hcps]
  have e2 : as.map SumArg.p = cps.map (·.2) := by simp [hcps]
  have hok : ∀ cp ∈ cps, Consistent u cp.1 ∧ cp.2.length = cp.1.sumSize size := by
    intro cp hcp
    obtain ⟨a, ha, rfl⟩ := mem_map.1 hcp
    exact ⟨hc a ha, length_of_perm_range (h a ha).perm⟩
  have hreal := bdiag_real as h
  rw [← hcps] at hreal
  have hperm := sumCanon_perm hu cps hok
  have hlen := sumCanon_length hu cps hok
  rw [← e1, ← e2] at hperm hlen
  simp only at hperm hlen ⊢
  set r := sumCanon size u (as.map SumArg.c) (as.map SumArg.p) with hr
  have hreal' := hreal.of_perm (hperm.symm.map _)
  have hfl : ((pcs size r.1.expand r.2).map fun kl => (mat kl.1, kl.2)).flatMap (·.2) = r.2 := by
    rw [flatMap_map]; exact pcs_flatten size _ _ (by rw [hlen, sum_map_expand])
  have hp := hreal'.perm
  rw [hfl] at hp
  have hrows : (DMat.bdiag (as.map SumArg.D)).rows = r.1.sumSize size := by
    rw [← hlen, length_of_perm_range hp]
  refine ⟨hrows ▸ hp, ⟨hrows, hreal'.sq.trans hrows⟩, ?_⟩
  have := hreal'.pick_eq
  rw [hfl, map_map] at this
  rw [this]
  congr 1
  conv_rhs => rw [← pcs_fst size r.1.expand r.2]
  rw [map_map]; rfl

end Verif
