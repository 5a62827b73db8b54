import Verif.Lemmas.RepDrho
import Verif.Lemmas.ProdExpand

/-! Canonical forms are determined by the multiset of summands or factors. -/
namespace Verif
open List
variable {W : World}

theorem SortedCounter.ext {K : Type} [DecidableEq K] {lt : K → K → Bool} {c c' : Counter K} (h : SortedCounter lt c)
    (h' : SortedCounter lt c') (he : ∀ k, c.get k = c'.get k) : c = c' := by
  have mem : ∀ {c : Counter K}, SortedCounter lt c → ∀ k, k ∈ c.keys ↔ c.get k ≠ 0 := by
    intro c h k
    constructor
    · intro hk
      obtain ⟨kc, hkc, rfl⟩ := mem_map.1 hk
      rw [Counter.get_eq_of_mem h.nodup (n := kc.2) hkc]
      exact h.pos _ hkc
    · intro hk; by_contra hn; exact hk (Counter.get_of_not_mem hn)
  have hp : c.keys ~ c'.keys :=
    (perm_ext_iff_of_nodup h.nodup h'.nodup).2 fun k => by rw [mem h, mem h', he]
  have hk := h.st.eq_of_perm hp h.sorted h'.sorted
  rw [← Counter.eq_map_get h.nodup, ← Counter.eq_map_get h'.nodup, hk]
  exact map_congr_left fun k _ => by rw [he]

theorem Rep.summands_eq (r : Rep) : r.summands W = (r.cnt W).expand := by
  cases r <;> rfl

theorem SRep.WF.ext {s t : SRep} (hs : s.WF W) (ht : t.WF W) (h : s.c.expand ~ t.c.expand) : s.c = t.c := by
  refine hs.cnt.ext ht.cnt fun k => ?_
  rw [Counter.get_eq_count _ hs.cnt.nodup, Counter.get_eq_count _ ht.cnt.nodup, h.count_eq]

theorem PRep.WF.ext {p q : PRep} (hp : p.WF W) (hq : q.WF W) (h : p.c.expand ~ q.c.expand) : p.c = q.c := by
  refine hp.cnt.ext hq.cnt fun k => ?_
  rw [Counter.get_eq_count _ hp.cnt.nodup, Counter.get_eq_count _ hq.cnt.nodup, h.count_eq]

theorem sumCompute_expand {cs : List (Counter Key)} {ps : List (List ℕ)} (hlen : ps.length = cs.length)
    (hcn : ∀ c ∈ cs, c.keys.Nodup) : (sumCompute W cs ps).1.expand ~ cs.flatMap Counter.expand := by
  have hu := nodup_unionKeys W hcn
  have hsp : W.sorted (Key.lt W) (unionKeys W.setOrder cs) ~ unionKeys W.setOrder cs := W.sorted_perm _ _
  have hn : (sumCompute W cs ps).1.keys.Nodup := by
    unfold sumCompute; rw [sumCanon_keys]; exact hsp.nodup_iff.2 hu
  rw [perm_iff_count]
  intro k
  rw [← Counter.get_eq_count _ hn, ← sum_get' cs hcn]
  unfold sumCompute
  rw [sumCanon_counter _ _ _ hlen]
  by_cases hk : k ∈ W.sorted (Key.lt W) (unionKeys W.setOrder cs)
  · apply Counter.get_eq_of_mem
    · simpa [Counter.keys, Function.comp_def] using hsp.nodup_iff.2 hu
    · exact mem_map.2 ⟨k, hk, rfl⟩
  · rw [Counter.get_of_not_mem (by simpa [Counter.keys, Function.comp_def] using hk)]
    rw [hsp.mem_iff, mem_unionKeys] at hk
    symm
    apply List.sum_eq_zero
    intro x hx
    obtain ⟨c, hc, rfl⟩ := mem_map.1 hx
    exact Counter.get_of_not_mem fun h => hk ⟨c, hc, h⟩
where
  sum_get' (cs : List (Counter Key)) (hc : ∀ c ∈ cs, c.keys.Nodup) {k : Key} :
    (cs.map fun c => c.get k).sum = (cs.flatMap Counter.expand).count k := sum_get cs hc k

theorem mkSum_expand {ops : List Rep} (h : ∀ r ∈ ops, r.WF W) {s : SRep}
    (hs : s.c = (sumCompute W (ops.map (Rep.cnt W)) (ops.map (Rep.permOf W))).1) :
    s.c.expand ~ ops.flatMap (Rep.summands W) := by
  rw [hs]
  refine (sumCompute_expand (by simp) ?_).trans ?_
  · intro c hc
    obtain ⟨r, hr, rfl⟩ := mem_map.1 hc
    exact Rep.cnt_nodup (h r hr)
  · rw [flatMap_map]
    apply Perm.of_eq
    exact flatMap_congr fun r _ => (Rep.summands_eq r).symm

end Verif
