import Verif.Lemmas.RepProd

/-! `SumRep` constructor: the matrix of a sum is the block-diagonal matrix of the operands' matrices. -/
namespace Verif
open List

variable {W : World} {R : Type} [CommRing R] {I : Interp R}

/-- Any interpretation with the right sizes (to extract facts that do not depend on one). -/
def sizeInterp (W : World) : Interp ℤ :=
  ⟨fun k g => .eye (W.asize k (g.getD 0)), fun k g => .eye (W.asize k (g.getD 0))⟩

theorem sizeInterp_sized : (sizeInterp W).Sized W := ⟨fun _ _ => ⟨rfl, rfl⟩, fun _ _ => ⟨rfl, rfl⟩⟩

/-! ### Direct products -/

theorem DRep.kron_sq (hI : I.Sized W) {d : DRep} (h : d.WF W) :
    (LinOp.kron (d.c.expand.map (Fac.rho I))).sem.IsSq (d.size W) := by
  simp only [LinOp.sem, semL_map]
  have := kronL_isSq (R := R) d.c.expand (fun f => (f.rho I).sem) (Fac.size W) fun f hf =>
    Fac.rho_sq hI (h.key f (Counter.mem_expand hf))
  rwa [prod_map_expand] at this

theorem DRep.rho_sq (hI : I.Sized W) {d : DRep} (h : d.WF W) : (d.rho I).sem.IsSq (d.size W) :=
  conjPerm_isSq h.perm (DRep.kron_sq hI h)

theorem DRep.rho_pick (hI : I.Sized W) {d : DRep} (h : d.WF W) :
    (d.rho I).sem.pick d.perm d.perm = DMat.kronL (d.c.expand.map fun f => (f.rho I).sem) := by
  have := conjPerm_pick h.perm (DRep.kron_sq hI h)
  simp only [LinOp.sem, semL_map] at this
  exact this

theorem DRep.base_rho (hI : I.Sized W) {d : DRep} (h : d.WF W) :
    (DRep.rho I ⟨d.c, range (d.size W)⟩).sem = DMat.kronL (d.c.expand.map fun f => (f.rho I).sem) := by
  have h' : DRep.WF W ⟨d.c, range (d.size W)⟩ := ⟨h.cnt, h.one, h.key, h.hash, Perm.refl _⟩
  have := DRep.rho_pick hI h'
  rw [← this]
  have e := DRep.rho_sq hI h'
  have e2 : (DRep.size W ⟨d.c, range (d.size W)⟩) = d.size W := rfl
  rw [e2] at e
  conv_lhs => rw [← DMat.pick_range (DRep.rho I ⟨d.c, range (d.size W)⟩).sem]
  rw [e.1, e.2]

theorem mkDirectC_wf {d : DRep} (h : d.WF W) : mkDirectC W d.c = .ok ⟨d.c, range (d.size W)⟩ := by
  unfold mkDirectC dprodCompute
  have hu : unionKeys W.setOrder [d.c] = d.c.keys := rfl
  rw [hu, W.sorted_eq_self h.cnt.st h.cnt.sorted, prodCanon_self _ _ h.cnt.nodup h.cnt.pos _ (Perm.refl _)]
  unfold dprodFinish
  rw [if_pos]
  · rfl
  · rw [all_eq_true]; intro kc hkc; simpa using h.one kc hkc

theorem DRep.WF.base {d : DRep} (h : d.WF W) : DRep.WF W ⟨d.c, range (d.size W)⟩ :=
  ⟨h.cnt, h.one, h.key, h.hash, Perm.refl _⟩

/-! ### Keys -/

theorem Key.rho_sq (hI : I.Sized W) {k : Key} (h : k.WF W) : (k.rho I).sem.IsSq (k.size W) := by
  cases k with
  | scalar => exact ⟨rfl, rfl⟩
  | fac f => exact Fac.rho_sq hI h
  | dprod d => exact DRep.rho_sq hI h

theorem Key.WF.base {k : Key} (h : k.WF W) : (k.base W).WF W := by
  cases k with
  | scalar => trivial
  | fac f => exact Fac.WF.base h
  | dprod d => exact DRep.WF.base h

theorem Key.base_base (k : Key) : (k.base W).base W = k.base W := by
  cases k with
  | scalar => rfl
  | fac f => simp [Key.base, Fac.base_base]
  | dprod d => rfl

theorem Key.size_base (k : Key) : (k.base W).size W = k.size W := by
  cases k with
  | scalar => rfl
  | fac f => exact Fac.size_base f
  | dprod d => rfl

theorem Key.hashable_base (k : Key) : (k.base W).hashable = true := by
  cases k with
  | scalar => rfl
  | fac f => exact Fac.hashable_base f
  | dprod d => simp [Key.base, Key.hashable, permCanonical, argsort_range]

theorem Key.permOf_perm {k : Key} (h : k.WF W) : k.permOf W ~ range (k.size W) := by
  cases k with
  | scalar => exact Perm.refl _
  | fac f => exact Fac.permOf_perm h
  | dprod d => exact h.perm

theorem Key.canon_wf {k : Key} (h : k.WF W) : Key.canon W k = .ok (k.base W, k.permOf W) := by
  cases k with
  | scalar => rfl
  | fac f => simp only [Key.canon]; rw [Fac.canon_wf h]; rfl
  | dprod d => simp only [Key.canon]; rw [mkDirectC_wf h]; rfl

theorem PRep.base_rho (hI : I.Sized W) {p : PRep} (h : p.WF W) :
    (PRep.rho I ⟨p.c, range (p.size W)⟩).sem = DMat.kronL (p.c.expand.map fun f => (f.rho I).sem) := by
  have h' := h.base
  have := PRep.rho_pick hI h'
  rw [← this]
  have e := PRep.rho_sq hI h'
  have e2 : (PRep.size W ⟨p.c, range (p.size W)⟩) = p.size W := rfl
  rw [e2] at e
  conv_lhs => rw [← DMat.pick_range (PRep.rho I ⟨p.c, range (p.size W)⟩).sem]
  rw [e.1, e.2]

theorem Fac.rho_pick (hI : I.Sized W) {f : Fac} (h : f.WF W) :
    (f.rho I).sem.pick (f.permOf W) (f.permOf W) = ((f.base W).rho I).sem := by
  cases f with
  | atom a =>
    have e := Atom.rho_sq hI h
    simp only [Fac.permOf, Fac.base, Fac.rho]
    conv_rhs => rw [← DMat.pick_range (a.rho I).sem, e.1, e.2]
  | prod p =>
    exact (PRep.rho_pick hI h).trans (PRep.base_rho hI h).symm

/-- `canonicalize()` describes the reordering of the matrix. -/
theorem Key.rho_pick (hI : I.Sized W) {k : Key} (h : k.WF W) :
    (k.rho I).sem.pick (k.permOf W) (k.permOf W) = ((k.base W).rho I).sem := by
  cases k with
  | scalar =>
    simp only [Key.permOf, Key.base, Key.rho, LinOp.sem]
    exact DMat.pick_range (DMat.one 1)
  | fac f => exact Fac.rho_pick hI h
  | dprod d => exact (DRep.rho_pick hI h).trans (DRep.base_rho hI h).symm

/-! ### Sums -/

theorem SRep.dsum_sq (hI : I.Sized W) {s : SRep} (h : s.WF W) :
    (LinOp.dsum (s.c.map fun kc => (kc.1.rho I, kc.2))).sem.IsSq (s.size W) := by
  simp only [LinOp.sem]
  rw [semM_map s.c (Key.rho I)]
  have := bdiag_isSq (R := R) s.c.expand (fun k => (k.rho I).sem) (Key.size W) fun k hk =>
    Key.rho_sq hI (h.key k (Counter.mem_expand hk)).1
  rwa [sum_map_expand] at this

theorem SRep.rho_sq (hI : I.Sized W) {s : SRep} (h : s.WF W) : (s.rho I).sem.IsSq (s.size W) :=
  conjPerm_isSq h.perm (SRep.dsum_sq hI h)

theorem SRep.rho_pick (hI : I.Sized W) {s : SRep} (h : s.WF W) :
    (s.rho I).sem.pick s.perm s.perm = DMat.bdiag (s.c.expand.map fun k => (k.rho I).sem) := by
  have := conjPerm_pick h.perm (SRep.dsum_sq hI h)
  simp only [LinOp.sem] at this
  rw [semM_map s.c (Key.rho I)] at this
  exact this

/-- `canonicalize()`'s first result. -/
def Rep.base (W : World) : Rep → Rep
  | .key k => .key (k.base W)
  | .sum s => .sum ⟨s.c, range (s.size W)⟩
  | r => r

/-- `canonicalize()`'s second result. -/
def Rep.permOf (W : World) : Rep → List ℕ
  | .key k => k.permOf W
  | .sum s => s.perm
  | _ => []

theorem SRep.WF.base {s : SRep} (h : s.WF W) : SRep.WF W ⟨s.c, range (s.size W)⟩ :=
  ⟨h.cnt, h.key, Perm.refl _⟩

theorem Rep.WF.base {r : Rep} (h : r.WF W) : (r.base W).WF W := by
  match r, h with
  | .key k, h => exact Key.WF.base h
  | .sum s, h => exact SRep.WF.base h

theorem mkSumC_perm {s : SRep} (h : s.WF W) : mkSumC W s.c (some s.perm) = s := by
  unfold mkSumC sumCompute
  have hu : unionKeys W.setOrder [s.c] = s.c.keys := rfl
  rw [hu, W.sorted_eq_self h.cnt.st h.cnt.sorted, Option.getD_some,
    sumCanon_self _ _ h.cnt.nodup _ (length_of_perm_range h.perm)]

theorem mkSumC_wf {s : SRep} (h : s.WF W) : mkSumC W s.c none = ⟨s.c, range (s.size W)⟩ := by
  have := mkSumC_perm h.base
  exact this

theorem Rep.canon_wf {r : Rep} (h : r.WF W) : Rep.canon W r = .ok (r.base W, r.permOf W) := by
  match r, h with
  | .key k, h => simp only [Rep.canon]; rw [Key.canon_wf h]; rfl
  | .sum s, h => simp only [Rep.canon]; rw [mkSumC_wf h]; rfl

/-- The counter of the canonical form. -/
def Rep.cnt (W : World) : Rep → Counter Key
  | .key k => [(k.base W, 1)]
  | .sum s => s.c
  | _ => []

theorem Rep.counter_wf {r : Rep} (h : r.WF W) : (r.base W).counter = .ok (r.cnt W) := by
  match r, h with
  | .key k, h => simp only [Rep.base, Rep.counter]; rw [if_pos (Key.hashable_base k)]; rfl
  | .sum s, h => rfl

theorem Rep.cnt_keys {r : Rep} : (r.cnt W).keys = r.keys W := by
  cases r <;> rfl

theorem Rep.cnt_size {r : Rep} (h : r.WF W) : (r.cnt W).sumSize (Key.size W) = r.size W := by
  match r, h with
  | .key k, h => simp [Rep.cnt, Counter.sumSize, Rep.size, Key.size_base]
  | .sum s, h => rfl

theorem Rep.permOf_perm {r : Rep} (h : r.WF W) : r.permOf W ~ range (r.size W) := by
  match r, h with
  | .key k, h => exact Key.permOf_perm h
  | .sum s, h => exact h.perm

theorem Rep.mat_sq (hI : I.Sized W) {r : Rep} (h : r.WF W) : (r.mat I).IsSq (r.size W) := by
  match r, h with
  | .key k, h => exact Key.rho_sq hI h
  | .sum s, h => exact SRep.rho_sq hI h

theorem Rep.rho_wf {r : Rep} (h : r.WF W) : ∃ L, r.rho I = .ok L ∧ L.sem = r.mat I := by
  match r, h with
  | .key k, h => exact ⟨_, rfl, rfl⟩
  | .sum s, h => exact ⟨_, rfl, rfl⟩

theorem Rep.keys_wf {r : Rep} (h : r.WF W) : ∀ k ∈ r.keys W, k.WF W ∧ k.base W = k := by
  match r, h with
  | .key k, h =>
    intro l hl; simp only [Rep.keys, mem_singleton] at hl; subst hl
    exact ⟨Key.WF.base h, Key.base_base k⟩
  | .sum s, h => exact h.key

theorem Rep.cnt_pos {r : Rep} (h : r.WF W) : ∀ kc ∈ r.cnt W, kc.2 ≠ 0 := by
  match r, h with
  | .key k, h => simp [Rep.cnt]
  | .sum s, h => exact h.cnt.pos

theorem Rep.cnt_ne {r : Rep} (h : r.WF W) : r.cnt W ≠ [] := by
  match r, h with
  | .key k, h => simp [Rep.cnt]
  | .sum s, h => exact h.cnt.ne

theorem Rep.cnt_sorted {r : Rep} (h : r.WF W) : (r.cnt W).keys.Pairwise fun a b => Key.lt W a b = true := by
  match r, h with
  | .key k, h => simp [Rep.cnt, Counter.keys]
  | .sum s, h => exact h.cnt.sorted

theorem Rep.cnt_nodup {r : Rep} (h : r.WF W) : (r.cnt W).keys.Nodup := by
  match r, h with
  | .key k, h => simp [Rep.cnt, Counter.keys]
  | .sum s, h => exact h.cnt.nodup

/-- Representations as operands of the generic sum theorem. -/
def repArg (W : World) (I : Interp R) (r : Rep) : SumArg Key R := ⟨r.cnt W, r.permOf W, r.mat I⟩

theorem Rep.mat_pick (hI : I.Sized W) {r : Rep} (h : r.WF W) :
    (r.mat I).pick (r.permOf W) (r.permOf W) = DMat.bdiag ((r.cnt W).expand.map fun k => (k.rho I).sem) := by
  match r, h with
  | .key k, h =>
    have := Key.rho_pick hI h
    simp only [Rep.cnt, Counter.expand, flatMap_cons, flatMap_nil, replicate_one, append_nil, map_cons, map_nil,
      DMat.bdiag_singleton]
    exact this
  | .sum s, h => exact SRep.rho_pick hI h

theorem repArg_ok (hI : I.Sized W) {r : Rep} (h : r.WF W) :
    (repArg W I r).OK (Key.size W) fun k => (k.rho I).sem where
  perm := by simp only [repArg]; rw [Rep.cnt_size h]; exact Rep.permOf_perm h
  sq := by simp only [repArg]; rw [Rep.cnt_size h]; exact Rep.mat_sq hI h
  pick := Rep.mat_pick hI h
  mat := by
    intro k hk
    simp only [repArg] at hk
    rw [Rep.cnt_keys] at hk
    exact Key.rho_sq hI (Rep.keys_wf h k hk).1

theorem sumCompute_counter {cs : List (Counter Key)} {ps : List (List ℕ)} (hlen : ps.length = cs.length)
    (hne : ∃ c ∈ cs, c ≠ []) (hcn : ∀ c ∈ cs, c.keys.Nodup) (hpos : ∀ c ∈ cs, ∀ kc ∈ c, kc.2 ≠ 0)
    (hst : StrictTotalOn (Key.lt W) (cs.flatMap Counter.keys)) :
    SortedCounter (Key.lt W) (sumCompute W cs ps).1 ∧
    ∀ a, a ∈ (sumCompute W cs ps).1.keys ↔ ∃ c ∈ cs, a ∈ c.keys := by
  obtain ⟨u, hu⟩ : ∃ u, u = W.sorted (Key.lt W) (unionKeys W.setOrder cs) := ⟨_, rfl⟩
  have hum : ∀ a, a ∈ u ↔ ∃ c ∈ cs, a ∈ c.keys := by
    intro a; rw [hu, (W.sorted_perm _ _).mem_iff, mem_unionKeys]
  have hst' : StrictTotalOn (Key.lt W) (unionKeys W.setOrder cs) := hst.mono fun a ha => by
    rw [mem_unionKeys] at ha; exact mem_flatMap.2 ha
  have hsort : u.Pairwise fun a b => Key.lt W a b = true := by
    rw [hu]; exact W.sorted_ord _ _ (nodup_unionKeys W hcn) hst'
  have hstu : StrictTotalOn (Key.lt W) u := by rw [hu]; exact hst'.of_perm (W.sorted_perm _ _).symm
  have hcount : ∀ k ∈ u, (cs.map fun c => c.get k).sum ≠ 0 := by
    intro k hk
    obtain ⟨c, hc, hkc⟩ := (hum k).1 hk
    obtain ⟨kn, hkn, rfl⟩ := mem_map.1 hkc
    have h1 := Counter.get_eq_of_mem (hcn c hc) (n := kn.2) hkn
    have h2 : c.get kn.1 ≤ (cs.map fun c => c.get kn.1).sum := List.le_sum_of_mem (mem_map_of_mem (f := fun c => Counter.get c kn.1) hc)
    have := hpos c hc kn hkn
    omega
  have hc1 : (sumCompute W cs ps).1 = u.map fun k => (k, (cs.map fun c => c.get k).sum) := by
    unfold sumCompute
    rw [sumCanon_counter _ _ _ hlen, hu]
  have hk : (sumCompute W cs ps).1.keys = u := by
    rw [hc1, Counter.keys, map_map]; simp [Function.comp_def]
  refine ⟨⟨?_, hk ▸ hstu, hk ▸ hsort, ?_⟩, fun a => by rw [hk]; exact hum a⟩
  · intro h0
    rw [h0] at hk
    obtain ⟨c, hc, hcne⟩ := hne
    obtain ⟨kn, t, rfl⟩ := exists_cons_of_ne_nil hcne
    have : kn.1 ∈ u := (hum _).2 ⟨_, hc, by simp [Counter.keys]⟩
    rw [← hk] at this; simp [Counter.keys] at this
  · rw [hc1]; intro x hx
    obtain ⟨k, hk, rfl⟩ := mem_map.1 hx
    exact hcount k hk

/-- The `SumRep` constructor. -/
theorem mkSum_spec {ops : List Rep} (hne : ops ≠ []) (h : ∀ r ∈ ops, r.WF W)
    (hst : StrictTotalOn (Key.lt W) (ops.flatMap (Rep.keys W))) {extra : Option (List ℕ)}
    (hex : extraOf extra (ops.map (Rep.size W)).sum ~ range (ops.map (Rep.size W)).sum) :
    ∃ s, mkSum W ops extra = .ok s ∧ s.WF W ∧
      s.size W = (ops.map (Rep.size W)).sum ∧ (∀ k, k ∈ s.c.keys ↔ ∃ r ∈ ops, k ∈ r.keys W) ∧
      s.c = (sumCompute W (ops.map (Rep.cnt W)) (ops.map (Rep.permOf W))).1 ∧
      ∀ (R : Type) [CommRing R] (I : Interp R), I.Sized W → ∀ D : DMat R, D.IsSq (s.size W) →
        D.pick (extraOf extra (s.size W)) (extraOf extra (s.size W)) = DMat.bdiag (ops.map (Rep.mat I)) →
        (s.rho I).sem = D := by
  obtain ⟨cs, hcs⟩ : ∃ cs, cs = ops.map (Rep.cnt W) := ⟨_, rfl⟩
  obtain ⟨ps, hps⟩ : ∃ ps, ps = ops.map (Rep.permOf W) := ⟨_, rfl⟩
  obtain ⟨r, hr⟩ : ∃ r, r = sumCompute W cs ps := ⟨_, rfl⟩
  have hcn : ∀ c ∈ cs, c.keys.Nodup := by
    rw [hcs]; intro c hc; obtain ⟨f, hf, rfl⟩ := mem_map.1 hc; exact Rep.cnt_nodup (h f hf)
  have hpos : ∀ c ∈ cs, ∀ kc ∈ c, kc.2 ≠ 0 := by
    rw [hcs]; intro c hc; obtain ⟨f, hf, rfl⟩ := mem_map.1 hc; exact Rep.cnt_pos (h f hf)
  have hcne : ∃ c ∈ cs, c ≠ [] := by
    obtain ⟨f, t, rfl⟩ := exists_cons_of_ne_nil hne
    exact ⟨f.cnt W, by simp [hcs], Rep.cnt_ne (h f (by simp))⟩
  have hst' : StrictTotalOn (Key.lt W) (cs.flatMap Counter.keys) := by
    rw [hcs, flatMap_map]; simp only [Rep.cnt_keys]; exact hst
  have hlen : ps.length = cs.length := by rw [hps, hcs]; simp
  obtain ⟨hsc, hmem⟩ := sumCompute_counter (ps := ps) hlen hcne hcn hpos hst'
  rw [← hr] at hsc hmem
  have hmem' : ∀ a, a ∈ r.1.keys ↔ ∃ f ∈ ops, a ∈ f.keys W := by
    intro a; rw [hmem, hcs]; simp [Rep.cnt_keys]
  have hmk : mkSum W ops extra = .ok ⟨r.1, withExtra extra r.2⟩ := by
    unfold mkSum
    have he : ops.isEmpty = false := by simpa using hne
    rw [he, mapM_ok fun f hf => Rep.canon_wf (h f hf)]
    have hm2 : (ops.map fun f : Rep => (f.base W, f.permOf W)).mapM (fun c => c.1.counter) = .ok (ops.map (Rep.cnt W)) := by
      rw [mapM_map]
      exact mapM_ok fun f hf => Rep.counter_wf (h f hf)
    show ((ops.map fun f : Rep => (f.base W, f.permOf W)).mapM (fun c : Rep × List ℕ => c.1.counter) >>= fun counters =>
      (.ok ⟨(sumCompute W counters ((ops.map fun f : Rep => (f.base W, f.permOf W)).map (·.2))).1,
        withExtra extra (sumCompute W counters ((ops.map fun f : Rep => (f.base W, f.permOf W)).map (·.2))).2⟩ : Py SRep)) = _
    rw [hm2]
    simp only [map_map, Function.comp_def]
    rw [show (ops.map fun x => x.permOf W) = ps from hps.symm, ← hcs]
    show Except.ok _ = _
    rw [← hr]
  have hux : (W.sorted (Key.lt W) (unionKeys W.setOrder cs)).Nodup :=
      (W.sorted_perm _ _).nodup_iff.2 (nodup_unionKeys W hcn)
  have hstu : StrictTotalOn (Key.lt W) (unionKeys W.setOrder cs) := hst'.mono fun a ha => by
    rw [mem_unionKeys] at ha; exact mem_flatMap.2 ha
  have gen : ∀ (R : Type) [CommRing R] (I : Interp R), I.Sized W →
      r.2 ~ range (r.1.sumSize (Key.size W)) ∧
      (DMat.bdiag (ops.map (Rep.mat I))).IsSq (r.1.sumSize (Key.size W)) ∧
      (DMat.bdiag (ops.map (Rep.mat I))).pick r.2 r.2 = DMat.bdiag (r.1.expand.map fun a => (a.rho I).sem) := by
    intro R _ I hI
    have := sumCanon_mat (size := Key.size W) hux (mat := fun a => (a.rho I).sem) (ops.map (repArg W I))
      (by intro a ha; obtain ⟨f, hf, rfl⟩ := mem_map.1 ha; exact repArg_ok hI (h f hf))
      (by
        intro a ha; obtain ⟨f, hf, rfl⟩ := mem_map.1 ha
        apply consistent_of_sorted (lt := Key.lt W)
        · exact hstu.of_perm (W.sorted_perm _ _).symm
        · exact W.sorted_ord _ _ (nodup_unionKeys W hcn) hstu
        · exact Rep.cnt_sorted (h f hf)
        · intro k hk
          rw [(W.sorted_perm _ _).mem_iff, mem_unionKeys]
          exact ⟨f.cnt W, by rw [hcs]; exact mem_map_of_mem hf, hk⟩)
    simp only [map_map, Function.comp_def, repArg] at this
    rw [show (ops.map fun x => x.cnt W) = cs from hcs.symm, show (ops.map fun x => x.permOf W) = ps from hps.symm] at this
    rw [hr]
    exact this
  obtain ⟨q1, q2, -⟩ := gen ℤ (sizeInterp W) sizeInterp_sized
  have hsize : r.1.sumSize (Key.size W) = (ops.map (Rep.size W)).sum := by
    rw [← q2.1, (bdiag_isSq ops _ (Rep.size W) fun f hf => Rep.mat_sq sizeInterp_sized (h f hf)).1]
  rw [← hsize] at hex
  have hperm : withExtra extra r.2 ~ range (r.1.sumSize (Key.size W)) := by
    rw [withExtra_eq q1]; exact gather_perm hex q1
  have hwf : SRep.WF W ⟨r.1, withExtra extra r.2⟩ := by
    refine ⟨hsc, ?_, hperm⟩
    intro k hk
    obtain ⟨f, hf, hkf⟩ := (hmem' k).1 hk
    exact Rep.keys_wf (h f hf) k hkf
  refine ⟨_, hmk, hwf, hsize, hmem', by rw [hr, hcs, hps], ?_⟩
  intro R _ I hI D hD hpick
  obtain ⟨p1, p2, p3⟩ := gen R I hI
  apply conjPerm_eq hperm (SRep.dsum_sq hI hwf) hD
  simp only [LinOp.sem]
  rw [semM_map r.1 (Key.rho I), withExtra_eq p1, ← p3, ← hpick]
  have hb : ∀ x ∈ r.2, x < (extraOf extra (r.1.sumSize (Key.size W))).length := by
    intro x hx; rw [length_of_perm_range hex]; exact lt_of_perm_range p1 hx
  rw [show SRep.size W ⟨r.1, withExtra extra r.2⟩ = r.1.sumSize (Key.size W) from rfl]
  exact (DMat.pick_pick D hb hb).symm

/-- Without `extra_perm`: the matrix of the sum is the block-diagonal matrix of the operands' matrices. -/
theorem mkSum_spec_none {ops : List Rep} (hne : ops ≠ []) (h : ∀ r ∈ ops, r.WF W)
    (hst : StrictTotalOn (Key.lt W) (ops.flatMap (Rep.keys W))) :
    ∃ s, mkSum W ops none = .ok s ∧ s.WF W ∧
      s.size W = (ops.map (Rep.size W)).sum ∧ (∀ k, k ∈ s.c.keys ↔ ∃ r ∈ ops, k ∈ r.keys W) ∧
      s.c = (sumCompute W (ops.map (Rep.cnt W)) (ops.map (Rep.permOf W))).1 ∧
      ∀ (R : Type) [CommRing R] (I : Interp R), I.Sized W →
        (s.rho I).sem = DMat.bdiag (ops.map (Rep.mat I)) := by
  obtain ⟨p, h1, h2, h4, h5, h6, h7⟩ := mkSum_spec hne h hst (extra := none) (Perm.refl _)
  refine ⟨p, h1, h2, h4, h5, h6, fun R _ I hI => ?_⟩
  have hsq := bdiag_isSq ops (Rep.mat I) (Rep.size W) fun f hf => Rep.mat_sq hI (h f hf)
  rw [← h4] at hsq
  apply h7 R I hI _ hsq
  simp only [extraOf, Option.getD_none]
  conv_rhs => rw [← DMat.pick_range (DMat.bdiag (ops.map (Rep.mat I))), hsq.1, hsq.2]

end Verif
