import Verif.Lemmas.DRho

/-! `DirectProduct` constructor: the matrix of a product over several groups is the Kronecker product of the operands'
matrices, provided the regrouping by group keeps the factors in place. -/
namespace Verif
open List

variable {W : World}

/-- `rep.reps if type(rep)==DirectProduct else {rep:1}` of the canonical form. -/
def Key.dcnt (W : World) : Key → Counter Fac
  | .scalar => []
  | .fac f => [(f.base W, 1)]
  | .dprod d => d.c

theorem Key.dcounter_base {k : Key} (hk : k ≠ .scalar) : (k.base W).dcounter = .ok (k.dcnt W) := by
  cases k with
  | scalar => exact absurd rfl hk
  | fac f => simp only [Key.base, Key.dcounter, Fac.hashable_base, if_true]; rfl
  | dprod d => rfl

theorem Key.dcnt_nodup {k : Key} (h : k.WF W) : (k.dcnt W).keys.Nodup := by
  cases k with
  | scalar => simp [Key.dcnt, Counter.keys]
  | fac f => simp [Key.dcnt, Counter.keys]
  | dprod d => exact DRep.WF.cnt h |>.nodup

theorem Key.dcnt_wf {k : Key} (h : k.WF W) : ∀ f ∈ (k.dcnt W).keys, f.WF W ∧ f.hashable = true := by
  cases k with
  | scalar => simp [Key.dcnt, Counter.keys]
  | fac f =>
    intro x hx
    simp only [Key.dcnt, Counter.keys, map_cons, map_nil, mem_singleton] at hx
    subst hx
    exact ⟨Fac.WF.base h, Fac.hashable_base f⟩
  | dprod d => exact fun f hf => ⟨DRep.WF.key h f hf, DRep.WF.hash h f hf⟩

theorem Key.dcnt_size {k : Key} : (k.dcnt W).prodSize (Fac.size W) = k.size W := by
  cases k with
  | scalar => rfl
  | fac f => simp [Key.dcnt, Counter.prodSize, Fac.size_base, Key.size]
  | dprod d => rfl

/-- A `DirectProduct` whose factors need not be listed in increasing order. -/
structure DRep.WF0 (W : World) (d : DRep) : Prop where
  one : ∀ kc ∈ d.c, kc.2 = 1
  key : ∀ f ∈ d.c.keys, f.WF W
  perm : d.perm ~ range (d.size W)

section
variable {R : Type} [CommRing R] {I : Interp R}

/-- Keys as operands of the generic product theorem. -/
def dArg (W : World) (I : Interp R) (k : Key) : ProdArg Fac R := ⟨k.dcnt W, k.permOf W, (k.rho I).sem⟩

theorem dArg_ok (hI : I.Sized W) {k : Key} (h : k.WF W) : (dArg W I k).OK (Fac.size W) fun f => (f.rho I).sem where
  perm := by simp only [dArg]; rw [Key.dcnt_size]; exact Key.permOf_perm h
  sq := by simp only [dArg]; rw [Key.dcnt_size]; exact Key.rho_sq hI h
  pick := by
    cases k with
    | scalar =>
      simp only [dArg, Key.permOf, Key.dcnt, Counter.expand, Key.rho, LinOp.sem, flatMap_nil, map_nil, DMat.kronL]
      exact DMat.pick_range (DMat.one 1)
    | fac f =>
      have := Fac.rho_pick hI h
      simp only [dArg, Key.permOf, Key.dcnt, Counter.expand, Key.rho, flatMap_cons, flatMap_nil, replicate_one, append_nil,
        map_cons, map_nil, DMat.kronL, DMat.kron_one]
      exact this
    | dprod d => exact DRep.rho_pick hI h
  mat := fun f hf => Fac.rho_sq hI (Key.dcnt_wf h f hf).1
  nodup := Key.dcnt_nodup h

theorem DRep.WF0.kron_sq (hI : I.Sized W) {d : DRep} (h : d.WF0 W) :
    (LinOp.kron (d.c.expand.map (Fac.rho I))).sem.IsSq (d.size W) := by
  simp only [LinOp.sem, semL_map]
  have := kronL_isSq (R := R) d.c.expand (fun f => (f.rho I).sem) (Fac.size W) fun f hf =>
    Fac.rho_sq hI (h.key f (Counter.mem_expand hf))
  rwa [prod_map_expand] at this

theorem DRep.WF0.rho_sq (hI : I.Sized W) {d : DRep} (h : d.WF0 W) : (d.rho I).sem.IsSq (d.size W) :=
  conjPerm_isSq h.perm (h.kron_sq hI)

theorem DRep.WF0.eps_rho (hI : I.Sized W) {d : DRep} (h : d.WF0 W) : (d.rho I.eps).sem = (d.drho I).sem.eps := by
  have hs : ∀ f ∈ d.c.expand, (f.drho I).sem.IsSq (f.size W) := fun f hf =>
    Fac.drho_sq hI (h.key f (Counter.mem_expand hf))
  apply conjPerm_eps h.perm
  · have := DMat.kronsumL_isSq d.c.expand (fun a => (a.drho I).sem) (Fac.size W) hs
    rw [prod_map_expand] at this
    simp only [LinOp.sem, semL_map]
    exact this
  · simp only [LinOp.sem, semL_map]
    rw [DMat.eps_kronL _ _ (Fac.size W) hs]
    congr 1
    exact map_congr_left fun f hf => Fac.eps_rho hI (h.key f (Counter.mem_expand hf))

end

/-- What `compute_canonical` does with the operands of a `DirectProduct`, for every order `sorted` may return. -/
theorem dprodCompute_mat {ops : List Key} (h : ∀ k ∈ ops, k.WF W) :
    (∀ (R : Type) [CommRing R] (I : Interp R), I.Sized W →
      let r := dprodCompute W (ops.map (Key.dcnt W)) (ops.map (Key.permOf W))
      r.2 ~ range (r.1.prodSize (Fac.size W)) ∧
      (DMat.kronL (ops.map fun k => (k.rho I).sem)).IsSq (r.1.prodSize (Fac.size W)) ∧
      (DMat.kronL (ops.map fun k => (k.rho I).sem)).pick r.2 r.2 = DMat.kronL (r.1.expand.map fun f => (f.rho I).sem)) := by
  intro R _ I hI
  have hcn : ∀ c ∈ ops.map (Key.dcnt W), c.keys.Nodup := by
    intro c hc; obtain ⟨k, hk, rfl⟩ := mem_map.1 hc; exact Key.dcnt_nodup (h k hk)
  have hu : (W.sorted (Fac.lt W) (unionKeys W.setOrder (ops.map (Key.dcnt W)))).Nodup :=
    (W.sorted_perm _ _).nodup_iff.2 (nodup_unionKeys W hcn)
  have := prodCanon_mat (size := Fac.size W) hu (mat := fun f => (f.rho I).sem) (ops.map (dArg W I))
    (by intro a ha; obtain ⟨k, hk, rfl⟩ := mem_map.1 ha; exact dArg_ok hI (h k hk))
    (by
      intro a ha f hf; obtain ⟨k, hk, rfl⟩ := mem_map.1 ha
      rw [(W.sorted_perm _ _).mem_iff, mem_unionKeys]
      exact ⟨k.dcnt W, mem_map_of_mem hk, hf⟩)
  simp only [map_map, Function.comp_def, dArg] at this
  exact this

/-- The merged counter. -/
theorem dprodCompute_counter {cs : List (Counter Fac)} {ps : List (List ℕ)} (hcn : ∀ c ∈ cs, c.keys.Nodup)
    (hpos : ∀ c ∈ cs, ∀ kc ∈ c, kc.2 ≠ 0) :
    (dprodCompute W cs ps).1 = (W.sorted (Fac.lt W) (unionKeys W.setOrder cs)).map fun k => (k, (cs.map fun c => c.get k).sum) := by
  unfold dprodCompute
  rw [prodCanon_counter, filter_eq_self]
  intro x hx
  obtain ⟨k, hk, rfl⟩ := mem_map.1 hx
  rw [(W.sorted_perm _ _).mem_iff, mem_unionKeys] at hk
  obtain ⟨c, hc, hkc⟩ := hk
  obtain ⟨kn, hkn, rfl⟩ := mem_map.1 hkc
  have h1 := Counter.get_eq_of_mem (hcn c hc) (n := kn.2) hkn
  have h2 : c.get kn.1 ≤ (cs.map fun c => c.get kn.1).sum :=
    List.le_sum_of_mem (mem_map_of_mem (f := fun c => Counter.get c kn.1) hc)
  have := hpos c hc kn hkn
  have h3 : (cs.map fun c => c.get kn.1).sum ≠ 0 := by omega
  simpa using h3

theorem Key.dcnt_pos {k : Key} (h : k.WF W) : ∀ kc ∈ k.dcnt W, kc.2 = 1 := by
  cases k with
  | scalar => simp [Key.dcnt]
  | fac f => simp [Key.dcnt]
  | dprod d => exact DRep.WF.one h

/-- The regrouping by group succeeds and keeps the factors in place. -/
structure GroupOK (W : World) (c : Counter Fac) (gd : List (Option Gid × Fac)) : Prop where
  run : groupLoop W c [] = .ok gd
  wf : ∀ x ∈ gd, x.2.WF W
  hash : ∀ x ∈ gd, x.2.hashable = true
  nodup : (gd.map (·.2)).Nodup
  mat : ∀ (R : Type) [CommRing R] (I : Interp R), I.Sized W →
    DMat.kronL (gd.map fun x => (x.2.rho I).sem) = DMat.kronL (c.expand.map fun f => (f.rho I).sem)

/-- The `DirectProduct` constructor, for every order `sorted` may return. -/
theorem mkDirect_core {ops : List Key} (hne : ops ≠ []) (h : ∀ k ∈ ops, k.WF W ∧ k ≠ .scalar) {gd : List (Option Gid × Fac)}
    (hgd : GroupOK W (dprodCompute W (ops.map (Key.dcnt W)) (ops.map (Key.permOf W))).1 gd) {extra : Option (List ℕ)}
    (hex : extraOf extra (ops.map (Key.size W)).prod ~ range (ops.map (Key.size W)).prod) :
    ∃ d, mkDirect W ops extra = .ok d ∧ d.WF0 W ∧ d.size W = (ops.map (Key.size W)).prod ∧
      d.c = (W.sorted (Fac.lt W) (gd.map (·.2))).map (fun f => (f, 1)) ∧
      ∀ (R : Type) [CommRing R] (I : Interp R), I.Sized W → ∀ D : DMat R, D.IsSq (d.size W) →
        D.pick (extraOf extra (d.size W)) (extraOf extra (d.size W)) = DMat.kronL (ops.map fun k => (k.rho I).sem) →
        (d.rho I).sem = D := by
  have hm := dprodCompute_mat (W := W) (ops := ops) fun k hk => (h k hk).1
  obtain ⟨r, hr⟩ : ∃ r, r = dprodCompute W (ops.map (Key.dcnt W)) (ops.map (Key.permOf W)) := ⟨_, rfl⟩
  simp only [← hr] at hm hgd
  obtain ⟨sub, hsub⟩ : ∃ sub : Counter Fac, sub = gd.map fun gf => (gf.2, 1) := ⟨_, rfl⟩
  have hsk : sub.keys = gd.map (·.2) := by rw [hsub, Counter.keys, map_map]; rfl
  have hse : sub.expand = gd.map (·.2) := by
    rw [hsub, Counter.expand, flatMap_map]
    simp only [replicate_one]
    rw [← flatMap_pure_eq_map]; rfl
  have hsn : sub.keys.Nodup := hsk ▸ hgd.nodup
  obtain ⟨r2, hr2⟩ : ∃ r2, r2 = dprodCompute W [sub] [range (sub.prodSize (Fac.size W))] := ⟨_, rfl⟩
  have hc2 : r2.1 = (W.sorted (Fac.lt W) (gd.map (·.2))).map fun f => (f, 1) := by
    rw [hr2, dprodCompute_counter (by simpa using hsn) (by
      intro c hc kc hkc
      rw [mem_singleton] at hc; subst hc
      rw [hsub] at hkc
      obtain ⟨x, -, rfl⟩ := mem_map.1 hkc
      exact one_ne_zero)]
    show (W.sorted (Fac.lt W) sub.keys).map _ = _
    rw [hsk]
    apply map_congr_left
    intro f hf
    rw [(W.sorted_perm _ _).mem_iff, ← hsk] at hf
    obtain ⟨kc, hkc, rfl⟩ := mem_map.1 hf
    have h1 : kc.2 = 1 := by
      rw [hsub] at hkc
      obtain ⟨x, -, rfl⟩ := mem_map.1 hkc
      rfl
    have := Counter.get_eq_of_mem hsn (n := kc.2) hkc
    simp only [map_cons, map_nil, sum_cons, sum_nil, add_zero]
    rw [this, h1]
  have hone : ∀ kc ∈ r2.1, kc.2 = 1 := by
    rw [hc2]; intro kc hkc; obtain ⟨f, -, rfl⟩ := mem_map.1 hkc; rfl
  have hkey : ∀ f ∈ r2.1.keys, f.WF W := by
    rw [hc2, Counter.keys, map_map]
    intro f hf
    obtain ⟨f', hf', rfl⟩ := mem_map.1 hf
    rw [(W.sorted_perm _ _).mem_iff] at hf'
    obtain ⟨x, hx, rfl⟩ := mem_map.1 hf'
    exact hgd.wf x hx
  have hmk : mkDirect W ops extra = .ok ⟨r2.1, withExtra extra (gather r.2 r2.2)⟩ := by
    unfold mkDirect
    have he : ops.isEmpty = false := by simpa using hne
    rw [he, mapM_ok fun k hk => Key.canon_wf (h k hk).1]
    show (do
      let counters ← (ops.map fun k => (k.base W, k.permOf W)).mapM fun c => c.1.dcounter
      let r := dprodCompute W counters ((ops.map fun k => (k.base W, k.permOf W)).map (·.2))
      let gd ← groupLoop W r.1 []
      if gd.all fun gf => gf.2.hashable then
        let sub : Counter Fac := gd.map fun gf => (gf.2, 1)
        let r2 := dprodCompute W [sub] [List.range (sub.prodSize (Fac.size W))]
        dprodFinish r2.1 (withExtra extra (gather r.2 r2.2))
      else throw .assertion : Py DRep) = _
    have hd : (ops.map fun k => (k.base W, k.permOf W)).mapM (fun c => c.1.dcounter) = .ok (ops.map (Key.dcnt W)) := by
      rw [mapM_map]
      exact mapM_ok fun k hk => Key.dcounter_base (h k hk).2
    rw [hd]
    have hp : (ops.map fun k => (k.base W, k.permOf W)).map (·.2) = ops.map (Key.permOf W) := by rw [map_map]; rfl
    show (do
      let gd ← groupLoop W (dprodCompute W (ops.map (Key.dcnt W)) ((ops.map fun k => (k.base W, k.permOf W)).map (·.2))).1 []
      if gd.all fun gf => gf.2.hashable then
        let sub : Counter Fac := gd.map fun gf => (gf.2, 1)
        let r2 := dprodCompute W [sub] [List.range (sub.prodSize (Fac.size W))]
        dprodFinish r2.1 (withExtra extra (gather (dprodCompute W (ops.map (Key.dcnt W)) ((ops.map fun k => (k.base W, k.permOf W)).map (·.2))).2 r2.2))
      else throw .assertion : Py DRep) = _
    rw [hp, ← hr, hgd.run]
    show (if gd.all fun gf => gf.2.hashable then
        dprodFinish (dprodCompute W [gd.map fun gf => (gf.2, 1)] [List.range (Counter.prodSize (Fac.size W) (gd.map fun gf => (gf.2, 1)))]).1
          (withExtra extra (gather r.2 (dprodCompute W [gd.map fun gf => (gf.2, 1)]
            [List.range (Counter.prodSize (Fac.size W) (gd.map fun gf => (gf.2, 1)))]).2))
      else throw .assertion : Py DRep) = _
    rw [if_pos (by rw [all_eq_true]; exact hgd.hash), ← hsub, ← hr2]
    unfold dprodFinish
    rw [if_pos (by rw [all_eq_true]; intro kc hkc; simpa using hone kc hkc)]
  have gen2 : ∀ (R : Type) [CommRing R] (I : Interp R), I.Sized W →
      r2.2 ~ range (r2.1.prodSize (Fac.size W)) ∧
      (DMat.kronL (sub.expand.map fun f => (f.rho I).sem)).IsSq (r2.1.prodSize (Fac.size W)) ∧
      (DMat.kronL (sub.expand.map fun f => (f.rho I).sem)).pick r2.2 r2.2 = DMat.kronL (r2.1.expand.map fun f => (f.rho I).sem) := by
    intro R _ I hI
    have hu : (W.sorted (Fac.lt W) (unionKeys W.setOrder [sub])).Nodup :=
      (W.sorted_perm _ _).nodup_iff.2 (nodup_unionKeys W (by simpa using hsn))
    have hsq : ∀ f ∈ sub.keys, (f.rho I).sem.IsSq (f.size W) := by
      rw [hsk]; intro f hf; obtain ⟨x, hx, rfl⟩ := mem_map.1 hf; exact Fac.rho_sq hI (hgd.wf x hx)
    have hD : (DMat.kronL (sub.expand.map fun f => (f.rho I).sem)).IsSq (sub.prodSize (Fac.size W)) := by
      have := kronL_isSq (R := R) sub.expand (fun f => (f.rho I).sem) (Fac.size W) fun f hf => hsq f (Counter.mem_expand hf)
      rwa [prod_map_expand] at this
    have := prodCanon_mat (size := Fac.size W) hu (mat := fun f => (f.rho I).sem)
      [⟨sub, range (sub.prodSize (Fac.size W)), DMat.kronL (sub.expand.map fun f => (f.rho I).sem)⟩]
      (by
        intro a ha
        rw [mem_singleton] at ha; subst ha
        refine ⟨Perm.refl _, hD, ?_, hsq, hsn⟩
        conv_rhs => rw [← DMat.pick_range (DMat.kronL (sub.expand.map fun f => (f.rho I).sem)), hD.1, hD.2])
      (by
        intro a ha f hf
        rw [mem_singleton] at ha; subst ha
        rw [(W.sorted_perm _ _).mem_iff, mem_unionKeys]
        exact ⟨sub, by simp, hf⟩)
    simp only [map_cons, map_nil, DMat.kronL_singleton] at this
    rw [hr2]
    exact this
  have hkr : ∀ (R : Type) [CommRing R] (I : Interp R), I.Sized W →
      DMat.kronL (sub.expand.map fun f => (f.rho I).sem) = DMat.kronL (r.1.expand.map fun f => (f.rho I).sem) := by
    intro R _ I hI
    rw [hse, map_map]
    exact hgd.mat R I hI
  have hI0 := sizeInterp_sized (W := W)
  obtain ⟨a1, a2, -⟩ := gen2 ℤ _ hI0
  obtain ⟨b1, b2, b3⟩ := hm ℤ _ hI0
  have hs2 : r2.1.prodSize (Fac.size W) = r.1.prodSize (Fac.size W) := by
    rw [← a2.1, hkr ℤ _ hI0, ← b3]
    exact length_of_perm_range b1
  have hs1 : r.1.prodSize (Fac.size W) = (ops.map (Key.size W)).prod := by
    rw [← b2.1, (kronL_isSq ops _ (Key.size W) fun k hk => Key.rho_sq hI0 (h k hk).1).1]
  have hq : gather r.2 r2.2 ~ range (ops.map (Key.size W)).prod := by
    rw [← hs1]; rw [hs2] at a1; exact gather_perm b1 a1
  have hsz : DRep.size W ⟨r2.1, withExtra extra (gather r.2 r2.2)⟩ = (ops.map (Key.size W)).prod := hs2.trans hs1
  have hperm : withExtra extra (gather r.2 r2.2) ~ range (ops.map (Key.size W)).prod := by
    rw [withExtra_eq hq]; exact gather_perm hex hq
  have hwf : DRep.WF0 W ⟨r2.1, withExtra extra (gather r.2 r2.2)⟩ := ⟨hone, hkey, by rw [hsz]; exact hperm⟩
  refine ⟨_, hmk, hwf, hsz, hc2, ?_⟩
  intro R _ I hI D hD hpick
  obtain ⟨p1, p2, p3⟩ := gen2 R I hI
  obtain ⟨q1, q2, q3⟩ := hm R I hI
  rw [hsz] at hD hpick
  refine conjPerm_eq (by rw [hsz]; exact hperm) (hwf.kron_sq hI) (by rw [hsz]; exact hD) ?_
  simp only [LinOp.sem, semL_map]
  have hb2 : ∀ x ∈ r2.2, x < r.2.length := by
    intro x hx; rw [length_of_perm_range q1, ← hs2]; exact lt_of_perm_range p1 hx
  have hb : ∀ x ∈ gather r.2 r2.2, x < (extraOf extra (ops.map (Key.size W)).prod).length := by
    intro x hx; rw [length_of_perm_range hex]; exact lt_of_perm_range hq hx
  rw [withExtra_eq hq, ← DMat.pick_pick D hb hb, hpick, ← DMat.pick_pick _ hb2 hb2, q3, ← hkr R I hI, p3]

/-- Without `extra_perm`. -/
theorem mkDirect_core_none {ops : List Key} (hne : ops ≠ []) (h : ∀ k ∈ ops, k.WF W ∧ k ≠ .scalar) {gd : List (Option Gid × Fac)}
    (hgd : GroupOK W (dprodCompute W (ops.map (Key.dcnt W)) (ops.map (Key.permOf W))).1 gd) :
    ∃ d, mkDirect W ops none = .ok d ∧ d.WF0 W ∧ d.size W = (ops.map (Key.size W)).prod ∧
      d.c = (W.sorted (Fac.lt W) (gd.map (·.2))).map (fun f => (f, 1)) ∧
      ∀ (R : Type) [CommRing R] (I : Interp R), I.Sized W → (d.rho I).sem = DMat.kronL (ops.map fun k => (k.rho I).sem) := by
  obtain ⟨d, h1, h2, h3, h4, h5⟩ := mkDirect_core hne h hgd (extra := none) (Perm.refl _)
  refine ⟨d, h1, h2, h3, h4, fun R _ I hI => ?_⟩
  have hsq := kronL_isSq ops (fun k => (k.rho I).sem) (Key.size W) fun k hk => Key.rho_sq hI (h k hk).1
  rw [← h3] at hsq
  apply h5 R I hI _ hsq
  simp only [extraOf, Option.getD_none]
  conv_rhs => rw [← DMat.pick_range (DMat.kronL (ops.map fun k => (k.rho I).sem)), hsq.1, hsq.2]

theorem Counter.get_single {K : Type} [DecidableEq K] (a : K) : Counter.get [(a, 1)] a = 1 := by simp [Counter.get]

theorem Counter.get_single_ne {K : Type} [DecidableEq K] {a b : K} (h : a ≠ b) : Counter.get [(a, 1)] b = 0 := by
  have : (b == a) = false := by simp [Ne.symm h]
  simp [Counter.get, List.lookup, this]

theorem groupInsert_fresh {g : Option Gid} {x : Fac} : ∀ {acc : List (Option Gid × Fac)}, (∀ y ∈ acc, y.1 ≠ g) →
    groupInsert W g x acc = .ok (acc ++ [(g, x)])
  | [], _ => rfl
  | (h, y) :: t, hh => by
    have h1 : h ≠ g := hh (h, y) (by simp)
    simp only [groupInsert]
    rw [if_neg h1, groupInsert_fresh fun z hz => hh z (by simp [hz])]
    rfl

theorem groupLoop_distinct : ∀ (l : List Fac) (acc : List (Option Gid × Fac)), (l.map Fac.G).Nodup →
    (∀ y ∈ acc, ∀ f ∈ l, y.1 ≠ f.G) → groupLoop W (l.map fun f => (f, 1)) acc = .ok (acc ++ l.map fun f => (f.G, f))
  | [], acc, _, _ => by simp [groupLoop]
  | f :: l, acc, hn, ha => by
    simp only [map_cons, nodup_cons] at hn
    simp only [map_cons, groupLoop, Fac.pow]
    have h1 := groupInsert_fresh (W := W) (g := f.G) (x := f) (acc := acc) fun y hy => ha y hy f (by simp)
    show (groupInsert W f.G f acc >>= fun acc' => groupLoop W (l.map fun f => (f, 1)) acc') = _
    rw [h1]
    show groupLoop W (l.map fun f => (f, 1)) (acc ++ [(f.G, f)]) = _
    rw [groupLoop_distinct l _ hn.2, append_assoc]
    · rfl
    · intro y hy z hz
      rcases mem_append.1 hy with hy | hy
      · exact ha y hy z (by simp [hz])
      · rw [mem_singleton] at hy
        subst hy
        intro e
        have e' : f.G = z.G := e
        exact hn.1 (e' ▸ mem_map_of_mem hz)

end Verif
