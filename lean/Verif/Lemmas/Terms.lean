import Verif.Lemmas.DRho

/-! Direct sums of representations that are not sums themselves, for every order `sorted` may return. -/
namespace Verif
open List

variable {W : World}

theorem mkSum_terms {ks : List Key} (hne : ks ≠ []) (hk : ∀ k ∈ ks, k.WF W) :
    ∃ s, mkSum W (ks.map .key) none = .ok s ∧ s.size W = (ks.map (Key.size W)).sum ∧
      ∀ (R : Type) [CommRing R] (I : Interp R), I.Sized W →
        (s.rho I).sem = DMat.bdiag (ks.map fun k => (k.rho I).sem) ∧
        (s.drho I).sem = DMat.bdiag (ks.map fun k => (k.drho I).sem) := by
  obtain ⟨ops, hops⟩ : ∃ ops, ops = ks.map Rep.key := ⟨_, rfl⟩
  have hne' : ops ≠ [] := by rw [hops]; simpa using hne
  have h : ∀ r ∈ ops, r.WF W := by
    rw [hops]; intro r hr; obtain ⟨k, hk', rfl⟩ := mem_map.1 hr; exact hk k hk'
  obtain ⟨cs, hcs⟩ : ∃ cs, cs = ops.map (Rep.cnt W) := ⟨_, rfl⟩
  obtain ⟨ps, hps⟩ : ∃ ps, ps = ops.map (Rep.permOf W) := ⟨_, rfl⟩
  obtain ⟨r, hr⟩ : ∃ r, r = sumCompute W cs ps := ⟨_, rfl⟩
  have hcn : ∀ c ∈ cs, c.keys.Nodup := by
    rw [hcs]; intro c hc; obtain ⟨f, hf, rfl⟩ := mem_map.1 hc; exact Rep.cnt_nodup (h f hf)
  have hmk : mkSum W ops none = .ok ⟨r.1, r.2⟩ := by
    unfold mkSum
    have he : ops.isEmpty = false := by simpa using hne'
    rw [he, mapM_ok fun f hf => Rep.canon_wf (h f hf)]
    have hm2 : (ops.map fun f : Rep => (f.base W, f.permOf W)).mapM (fun c => c.1.counter) = .ok (ops.map (Rep.cnt W)) := by
      rw [mapM_map]
      exact mapM_ok fun f hf => Rep.counter_wf (h f hf)
    show ((ops.map fun f : Rep => (f.base W, f.permOf W)).mapM (fun c : Rep × List ℕ => c.1.counter) >>= fun counters =>
      (.ok ⟨(sumCompute W counters ((ops.map fun f : Rep => (f.base W, f.permOf W)).map (·.2))).1,
        withExtra none (sumCompute W counters ((ops.map fun f : Rep => (f.base W, f.permOf W)).map (·.2))).2⟩ : Py SRep)) = _
    rw [hm2]
    simp only [map_map, Function.comp_def]
    rw [show (ops.map fun x => x.permOf W) = ps from hps.symm, ← hcs]
    show Except.ok _ = _
    rw [← hr]; rfl
  obtain ⟨u, hu⟩ : ∃ u, u = W.sorted (Key.lt W) (unionKeys W.setOrder cs) := ⟨_, rfl⟩
  have hux : u.Nodup := by rw [hu]; exact (W.sorted_perm _ _).nodup_iff.2 (nodup_unionKeys W hcn)
  have gen : ∀ (R : Type) [CommRing R] (I : Interp R), I.Sized W →
      r.2 ~ range (r.1.sumSize (Key.size W)) ∧
      (DMat.bdiag (ops.map (Rep.mat I))).IsSq (r.1.sumSize (Key.size W)) ∧
      (DMat.bdiag (ops.map (Rep.mat I))).pick r.2 r.2 = DMat.bdiag (r.1.expand.map fun a => (a.rho I).sem) := by
    intro R _ I hI
    have := sumCanon_mat (size := Key.size W) hux (mat := fun a => (a.rho I).sem) (ops.map (repArg W I))
      (by intro a ha; obtain ⟨f, hf, rfl⟩ := mem_map.1 ha; exact repArg_ok hI (h f hf))
      (by
        intro a ha
        obtain ⟨f, hf, rfl⟩ := mem_map.1 ha
        have hf' := hf
        rw [hops] at hf'
        obtain ⟨k, -, rfl⟩ := mem_map.1 hf'
        have hmem : k.base W ∈ u := by
          rw [hu, (W.sorted_perm _ _).mem_iff, mem_unionKeys]
          exact ⟨_, by rw [hcs]; exact mem_map_of_mem hf, by simp [Rep.cnt, Counter.keys]⟩
        show [k.base W] = u.filter (· ∈ [k.base W])
        simp only [mem_singleton]
        have he : u.filter (fun x => decide (x = k.base W)) = u.filter (· == k.base W) := filter_congr fun x _ => by
          by_cases e : x = k.base W <;> simp [e]
        rw [he, filter_beq, count_eq_one_of_mem hux hmem]; rfl)
    simp only [map_map, Function.comp_def, repArg] at this
    rw [show (ops.map fun x => x.cnt W) = cs from hcs.symm, show (ops.map fun x => x.permOf W) = ps from hps.symm, hu] at this
    rw [hr]
    exact this
  obtain ⟨q1, q2, -⟩ := gen ℤ (sizeInterp W) sizeInterp_sized
  have hsize : r.1.sumSize (Key.size W) = (ops.map (Rep.size W)).sum := by
    rw [← q2.1, (bdiag_isSq ops _ (Rep.size W) fun f hf => Rep.mat_sq sizeInterp_sized (h f hf)).1]
  have hkey : ∀ k ∈ r.1.expand, k.WF W := by
    intro k hk'
    have hmem := Counter.mem_expand hk'
    rw [hr] at hmem
    unfold sumCompute at hmem
    have hlen : ps.length = cs.length := by rw [hps, hcs]; simp
    rw [Counter.keys, sumCanon_counter _ _ _ hlen] at hmem
    obtain ⟨x, hx', rfl⟩ := mem_map.1 hmem
    obtain ⟨y, hy, rfl⟩ := mem_map.1 hx'
    rw [(W.sorted_perm _ _).mem_iff, mem_unionKeys] at hy
    obtain ⟨c, hc, hyc⟩ := hy
    rw [hcs] at hc
    obtain ⟨f, hf, rfl⟩ := mem_map.1 hc
    rw [Rep.cnt_keys] at hyc
    exact (Rep.keys_wf (h f hf) _ hyc).1
  have hmat : ∀ (R : Type) [CommRing R] (I : Interp R), I.Sized W →
      (SRep.rho I ⟨r.1, r.2⟩).sem = DMat.bdiag (ks.map fun k => (k.rho I).sem) := by
    intro R _ I hI
    obtain ⟨p1, p2, p3⟩ := gen R I hI
    have e : ops.map (Rep.mat I) = ks.map fun k => (k.rho I).sem := by rw [hops, map_map]; rfl
    rw [e] at p2 p3
    refine conjPerm_eq p1 ?_ p2 ?_
    · simp only [LinOp.sem]
      rw [semM_map r.1 (Key.rho I)]
      have := bdiag_isSq (R := R) r.1.expand (fun k => (k.rho I).sem) (Key.size W) fun k hk => Key.rho_sq hI (hkey k hk)
      rwa [sum_map_expand] at this
    · simp only [LinOp.sem]
      rw [semM_map r.1 (Key.rho I), p3]
  refine ⟨_, hops ▸ hmk, ?_, fun R _ I hI => ⟨hmat R I hI, ?_⟩⟩
  · show r.1.sumSize (Key.size W) = _
    rw [hsize, hops, map_map]; rfl
  · have hs : ∀ k ∈ r.1.expand, (k.drho I).sem.IsSq (k.size W) := fun k hk => Key.drho_sq hI (hkey k hk)
    have h1 : (SRep.rho I.eps ⟨r.1, r.2⟩).sem = (SRep.drho I ⟨r.1, r.2⟩).sem.eps := by
      apply conjPerm_eps (gen R I hI).1
      · have := bdiag_isSq r.1.expand (fun a => (a.drho I).sem) (Key.size W) hs
        rw [sum_map_expand] at this
        simp only [LinOp.sem, semM_map]
        exact this
      · simp only [LinOp.sem, semM_map]
        rw [DMat.eps_bdiag _ _ (Key.size W) hs]
        congr 1
        exact map_congr_left fun k hk => Key.eps_rho hI (hkey k hk)
    apply DMat.eps_inj
    rw [← h1, hmat _ I.eps hI.eps, DMat.eps_bdiag _ _ (Key.size W) fun k hk' => Key.drho_sq hI (hk k hk')]
    congr 1
    exact map_congr_left fun k hk' => Key.eps_rho hI (hk k hk')

end Verif
