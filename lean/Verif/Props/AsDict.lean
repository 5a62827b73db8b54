import Verif.Lemmas.AsDict
import Verif.Props.ExampleWorld
import Verif.Props.ExampleInterp

/-!
# Typed parts of a vector (C17)
-/
namespace Verif
open List
variable {W : World}

theorem Key.permOf_of_base {k : Key} (h : k.base W = k) : k.permOf W = range (k.size W) := by
  rw [← h, Key.permOf_base, Key.size_base]

theorem mkSum_eq {ops : List Rep} (hne : ops ≠ []) (h : ∀ r ∈ ops, r.WF W) :
    mkSum W ops none = .ok ⟨(sumCompute W (ops.map (Rep.cnt W)) (ops.map (Rep.permOf W))).1,
      (sumCompute W (ops.map (Rep.cnt W)) (ops.map (Rep.permOf W))).2⟩ := by
  unfold mkSum
  have he : ops.isEmpty = false := by simpa using hne
  rw [he, mapM_ok fun f hf => Rep.canon_wf (h f hf)]
  have hm2 : (ops.map fun f : Rep => (f.base W, f.permOf W)).mapM (fun c => c.1.counter) = .ok (ops.map (Rep.cnt W)) := by
    rw [mapM_map]
    exact mapM_ok fun f hf => Rep.counter_wf (h f hf)
  show ((ops.map fun f : Rep => (f.base W, f.permOf W)).mapM (fun c : Rep × List ℕ => c.1.counter) >>= fun counters =>
    (.ok ⟨(sumCompute W counters ((ops.map fun f : Rep => (f.base W, f.permOf W)).map (·.2))).1,
      withExtra none (sumCompute W counters ((ops.map fun f : Rep => (f.base W, f.permOf W)).map (·.2))).2⟩ : Py SRep)) = _
  rw [hm2]
  simp only [map_map, Function.comp_def]
  rfl

theorem shiftOps_parts {α : Type} [Zero α] (parts : List (Key × List α)) (hl : ∀ p ∈ parts, p.2.length = p.1.size W) (pre : List α) :
    ((shiftOps pre.length (parts.map fun p => ([(p.1, 1)], range (p.1.size W)))).flatMap fun cp => pcs (Key.size W) cp.1.expand cp.2).map
      (fun q => (q.1, sel (pre ++ parts.flatMap Prod.snd) q.2)) = parts := by
  induction parts generalizing pre with
  | nil => rfl
  | cons p t ih =>
    have hp := hl p (by simp)
    have := ih (fun q hq => hl q (by simp [hq])) (pre ++ p.2)
    rw [length_append, hp] at this
    rw [append_assoc] at this
    simp only [map_cons, shiftOps, flatMap_cons, map_append, length_range]
    rw [this]
    have e2 : pcs (Key.size W) (Counter.expand [(p.1, 1)]) ((range (p.1.size W)).map (pre.length + ·)) =
        [(p.1, (range (p.1.size W)).map (pre.length + ·))] := by
      have h0 : Counter.expand [(p.1, 1)] = [p.1] := by simp [Counter.expand]
      rw [h0]
      simp only [pcs]
      rw [take_of_length_le (by simp)]
    rw [e2]
    simp only [map_cons, map_nil, singleton_append]
    congr 1
    refine Prod.ext rfl ?_
    refine ext_getElem (by simp [hp]) fun i h1 h2 => ?_
    have hi : i < p.2.length := h2
    simp [sel, getElem?_append_right, getElem?_append_left hi, getElem?_eq_getElem hi]

theorem length_filter_sum {α : Type} (parts : List (Key × List α)) (k : Key) :
    ((parts.map fun p => ([(p.1, 1)] : Counter Key)).map fun c => Counter.get c k).sum = (parts.filter (·.1 = k)).length := by
  induction parts with
  | nil => rfl
  | cons p t ih =>
    simp only [map_cons, sum_cons, filter_cons]
    rw [ih]
    by_cases h : p.1 = k
    · simp [h, Counter.get, lookup]; omega
    · have : (k == p.1) = false := by simpa using fun e => h e.symm
      simp [h, Counter.get, lookup, this]

/-- **C17.** For a direct sum built from types `k₁ + … + kₙ`, `as_dict` of the concatenation of parts maps each type to
the parts of that type, in the order in which they were written. -/
theorem C17_typed_parts {α : Type} [Zero α] {parts : List (Key × List α)} (hne : parts ≠ []) (hw : ∀ p ∈ parts, p.1.WF W ∧ p.1.base W = p.1)
    (hl : ∀ p ∈ parts, p.2.length = p.1.size W) (hst : StrictTotalOn (Key.lt W) (parts.map Prod.fst)) :
    ∃ s, mkSum W (parts.map fun p => .key p.1) none = .ok s ∧ s.c.keys.Nodup ∧ (∀ k, k ∈ s.c.keys ↔ k ∈ parts.map Prod.fst) ∧
      s.asDict W (parts.flatMap Prod.snd) = s.c.keys.map fun k => (k, (parts.filter (·.1 = k)).map Prod.snd) := by
  obtain ⟨ops, hops⟩ : ∃ ops : List Rep, ops = parts.map fun p => .key p.1 := ⟨_, rfl⟩
  have hkeys : ops.flatMap (Rep.keys W) = parts.map Prod.fst := by
    rw [hops, flatMap_map]
    have : parts.flatMap (fun p => Rep.keys W (.key p.1)) = parts.flatMap fun p => [p.1] :=
      flatMap_congr fun p hp => by simp [Rep.keys, (hw p hp).2]
    rw [this]; exact (map_eq_flatMap).symm
  have hwf : ∀ r ∈ ops, r.WF W := by
    rw [hops]; intro r hr; obtain ⟨p, hp, rfl⟩ := mem_map.1 hr; exact (hw p hp).1
  have hone : ops ≠ [] := by rw [hops]; simpa using hne
  obtain ⟨s, hs, hwfs, hsz, hmem, hc, -⟩ := mkSum_spec_none hone hwf (hkeys ▸ hst)
  have hs2 := mkSum_eq hone hwf
  rw [hs] at hs2
  have hs3 : s = ⟨_, _⟩ := Except.ok.inj hs2
  have hcnt : ops.map (Rep.cnt W) = parts.map fun p => [(p.1, 1)] := by
    rw [hops, map_map]
    exact map_congr_left fun p hp => by simp [Rep.cnt, (hw p hp).2]
  have hperm : ops.map (Rep.permOf W) = parts.map fun p => range (p.1.size W) := by
    rw [hops, map_map]
    exact map_congr_left fun p hp => by simp [Rep.permOf, Key.permOf_of_base (hw p hp).2]
  rw [hcnt, hperm] at hs3
  obtain ⟨u, hu⟩ : ∃ u, u = W.sorted (Key.lt W) (unionKeys W.setOrder (parts.map fun p => [(p.1, 1)])) := ⟨_, rfl⟩
  have hcn : ∀ c ∈ parts.map fun p => ([(p.1, 1)] : Counter Key), (Counter.keys c).Nodup := by
    intro c hc; obtain ⟨p, hp, rfl⟩ := mem_map.1 hc; simp [Counter.keys]
  have hmu : ∀ k, k ∈ unionKeys W.setOrder (parts.map fun p => ([(p.1, 1)] : Counter Key)) ↔ k ∈ parts.map Prod.fst := by
    intro k; rw [mem_unionKeys]; simp [Counter.keys, eq_comm]
  have hux : u.Nodup := hu ▸ (W.sorted_perm _ _).nodup_iff.2 (nodup_unionKeys W hcn)
  have hstu : StrictTotalOn (Key.lt W) (unionKeys W.setOrder (parts.map fun p => ([(p.1, 1)] : Counter Key))) :=
    hst.mono fun a ha => (hmu a).1 ha
  have hsr := W.sorted_ord _ _ (nodup_unionKeys W hcn) hstu
  rw [← hu] at hsr
  have hsc : s.c = u.map fun k => (k, (parts.filter (·.1 = k)).length) := by
    rw [hs3]
    show (sumCompute W _ _).1 = _
    unfold sumCompute
    rw [sumCanon_counter _ _ _ (by simp), ← hu]
    exact map_congr_left fun k _ => by rw [length_filter_sum]
  have hck : s.c.keys = u := by rw [hsc, Counter.keys, map_map]; simp [Function.comp_def]
  have hpcs := sumCanon_pcs (size := Key.size W) hux (parts.map fun p => (([(p.1, 1)] : Counter Key), range (p.1.size W))) (by
    intro cp hcp
    obtain ⟨p, hp, rfl⟩ := mem_map.1 hcp
    refine ⟨?_, by simp [Counter.sumSize]⟩
    refine consistent_of_sorted (lt := Key.lt W) ?_ hsr (by simp [Counter.keys]) ?_
    · rw [hu]; exact hstu.of_perm (W.sorted_perm _ _).symm
    · intro k hk
      rw [hu, (W.sorted_perm _ _).mem_iff, hmu]
      simp [Counter.keys] at hk
      exact hk ▸ mem_map_of_mem hp)
  simp only [map_map, Function.comp_def] at hpcs
  rw [flatMap_filter_flatMap] at hpcs
  have hsp : pcs (Key.size W) s.c.expand s.perm = u.flatMap fun k =>
      ((shiftOps 0 (parts.map fun p => (([(p.1, 1)] : Counter Key), range (p.1.size W)))).flatMap fun b =>
        pcs (Key.size W) b.1.expand b.2).filter (·.1 = k) := by
    rw [← hpcs, hs3, hu]
    rfl
  refine ⟨s, hops ▸ hs, hck ▸ hux, fun k => ?_, ?_⟩
  · rw [hck, hu, (W.sorted_perm _ _).mem_iff, hmu]
  · apply dict_ext
    · show (asDictLoop _ _ _ _ _).map _ = _
      rw [asDictLoop_keys, hck, hsc, map_map]
      simp [Function.comp_def]
    · rw [asDict_pcs, flatMap_map, hck]
      simp only [sel]
      rw [pcs_map, hsp, map_flatMap]
      refine flatMap_congr fun k _ => ?_
      have := shiftOps_parts (W := W) parts hl []
      simp only [length_nil, nil_append] at this
      conv_rhs => rw [← this]
      rw [filter_map]
      simp only [Function.comp_def, map_map, sel]
      refine map_congr_left fun q hq => ?_
      have := (mem_filter.1 hq).2
      simp only [decide_eq_true_eq] at this
      rw [this]

/-- **C17.** Every coordinate appears exactly once: the rows of `as_dict(np.arange(n))` are a permutation of the coordinates;
each type has as many rows as its multiplicity, each of the size of the type. -/
theorem C17_partition {s : SRep} (h : s.WF W) :
    ((s.asDict W (range (s.size W))).flatMap fun e => e.2.flatten) ~ range (s.size W) ∧
    (s.asDict W (range (s.size W))).map (fun e => (e.1, e.2.length)) = s.c ∧
    ∀ e ∈ s.asDict W (range (s.size W)), ∀ row ∈ e.2, row.length = e.1.size W := by
  have hp := asDict_pcs (W := W) s (range (s.size W))
  have hl : (sel (range (s.size W)) s.perm).length = (s.c.expand.map (Key.size W)).sum := by
    rw [length_sel, length_of_perm_range h.perm, sum_map_expand]; rfl
  refine ⟨?_, asDictLoop_keys _ _ _ _ _, ?_⟩
  · have h1 := congrArg (fun l => l.flatMap Prod.snd) hp
    beta_reduce at h1
    rw [pcs_flatten _ _ _ hl, flatMap_assoc] at h1
    have h2 : (s.asDict W (range (s.size W))).flatMap (fun e => (e.2.map fun r => (e.1, r)).flatMap Prod.snd) =
        (s.asDict W (range (s.size W))).flatMap fun e => e.2.flatten :=
      flatMap_congr fun e _ => by simp [flatMap_map]
    rw [← h2, h1]
    have h3 : sel (range (s.size W)) s.perm = s.perm := by
      conv_rhs => rw [← map_id s.perm]
      refine map_congr_left fun x hx => ?_
      exact getD_range (lt_of_perm_range h.perm hx)
    rw [h3]; exact h.perm
  · intro e he row hrow
    have : (e.1, row) ∈ pcs (Key.size W) s.c.expand (sel (range (s.size W)) s.perm) := by
      rw [← hp]; exact mem_flatMap.2 ⟨e, he, mem_map_of_mem hrow⟩
    exact pcs_length _ _ _ hl _ this

/-- **C17.** `as_dict` is equivariant: acting on the vector acts on each row by the row's own type. -/
theorem C17_equivariant {R : Type} [CommRing R] {I : Interp R} (hI : I.Sized W) {s : SRep} (h : s.WF W) {v : List R} (hv : v.length = s.size W) :
    s.asDict W ((s.rho I).sem.mulVec v) = (s.asDict W v).map fun e => (e.1, e.2.map fun row => (e.1.rho I).sem.mulVec row) := by
  apply dict_ext
  · rw [map_map]
    simp only [Function.comp_def, length_map]
    exact (asDictLoop_keys _ _ _ _ _).trans (asDictLoop_keys _ _ _ _ _).symm
  · rw [asDict_pcs, SRep.pcs_rho hI h hv, ← asDict_pcs, map_flatMap, flatMap_map]
    refine flatMap_congr fun e _ => ?_
    simp [Function.comp_def]

/-- A case: `V + Scalar + V` for the group of dimension 3. -/
example : ∃ s, mkSum exW [.key (.atom (.vec 0 (some 0))), .key .scalar, .key (.atom (.vec 0 (some 0)))] none = .ok s ∧
    s.asDict exW [1, 2, 3, 4, 5, 6, 7] = [(.scalar, [[4]]), (.atom (.vec 0 (some 0)), [[1, 2, 3], [5, 6, 7]])] :=
  ⟨⟨[(.scalar, 1), (.atom (.vec 0 (some 0)), 2)], [3, 0, 1, 2, 4, 5, 6]⟩, by decide +kernel, by decide +kernel⟩

example : StrictTotalOn (Key.lt exW) [.atom (.vec 0 (some 0)), .scalar, .atom (.vec 0 (some 0))] := by
  constructor <;> decide +kernel

end Verif
