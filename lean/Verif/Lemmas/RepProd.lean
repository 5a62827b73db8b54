import Verif.Spec.RepWF
import Verif.Lemmas.Conj

/-! `ProductRep` constructor: the matrix of a product is the Kronecker product. -/
namespace Verif
open List

variable {W : World} {R : Type} [CommRing R] {I : Interp R}

theorem Atom.rho_sq (hI : I.Sized W) {a : Atom} (h : a.G.isSome) : (a.rho I).sem.IsSq (a.size W) := by
  match a, h with
  | .vec k (some g), _ => exact hI.vec k g
  | .dual k (some g), _ => exact hI.dual k g

theorem PRep.WF.some {p : PRep} (h : p.WF W) : ∀ a ∈ p.c.keys, a.G.isSome := by
  obtain ⟨g, hg⟩ := h.grp
  intro a ha; rw [hg a ha]; rfl

theorem PRep.kron_sq (hI : I.Sized W) {p : PRep} (h : p.WF W) :
    (LinOp.kron (p.c.expand.map (Atom.rho I))).sem.IsSq (p.size W) := by
  simp only [LinOp.sem, semL_map]
  have := kronL_isSq (R := R) p.c.expand (fun a => (a.rho I).sem) (Atom.size W) fun a ha =>
    Atom.rho_sq hI (h.some a (Counter.mem_expand ha))
  rwa [prod_map_expand] at this

theorem PRep.rho_sq (hI : I.Sized W) {p : PRep} (h : p.WF W) : (p.rho I).sem.IsSq (p.size W) :=
  conjPerm_isSq h.perm (PRep.kron_sq hI h)

theorem PRep.rho_pick (hI : I.Sized W) {p : PRep} (h : p.WF W) :
    (p.rho I).sem.pick p.perm p.perm = DMat.kronL (p.c.expand.map fun a => (a.rho I).sem) := by
  have := conjPerm_pick h.perm (PRep.kron_sq hI h)
  simp only [LinOp.sem, semL_map] at this
  exact this

theorem Fac.rho_sq (hI : I.Sized W) {f : Fac} (h : f.WF W) : (f.rho I).sem.IsSq (f.size W) := by
  cases f with
  | atom a => exact Atom.rho_sq hI h
  | prod p => exact PRep.rho_sq hI h

/-- A one-letter counter is sorted. -/
theorem SortedCounter.single {K : Type} {lt : K → K → Bool} {k : K} (h : lt k k = false) : SortedCounter lt [(k, 1)] where
  ne := by simp
  st := by
    constructor
    · intro a ha; simp only [Counter.keys, map_cons, map_nil, mem_singleton] at ha; rw [ha]; exact h
    · intro a ha b hb c hc h1
      simp only [Counter.keys, map_cons, map_nil, mem_singleton] at ha hb hc
      subst ha hb; rw [h] at h1; simp at h1
    · intro a ha b hb hab
      simp only [Counter.keys, map_cons, map_nil, mem_singleton] at ha hb
      subst ha hb; exact absurd rfl hab
  sorted := by simp [Counter.keys]
  pos := by simp

theorem SortedCounter.nodup {K : Type} {lt : K → K → Bool} {c : Counter K} (h : SortedCounter lt c) : c.keys.Nodup :=
  h.st.nodup h.sorted

theorem dedup_eq_singleton {α : Type} [DecidableEq α] {l : List α} (hl : l ≠ []) {g : α} (h : ∀ a ∈ l, a = g) :
    l.dedup = [g] := by
  have hm : ∀ a, a ∈ l.dedup ↔ a = g := by
    intro a; rw [mem_dedup]
    constructor
    · exact h a
    · rintro rfl
      obtain ⟨b, hb⟩ := exists_mem_of_ne_nil l hl
      rw [← h b hb]; exact hb
  have hp : l.dedup ~ [g] := by
    rw [perm_ext_iff_of_nodup (nodup_dedup l) (by simp)]
    intro a; rw [hm]; simp
  exact perm_singleton.1 hp

theorem prodFinish_ok {c : Counter Atom} {perm : List ℕ} {g : Gid} (hne : c ≠ [])
    (h : ∀ a ∈ c.keys, a.G = some g) : prodFinish c perm = .ok ⟨c, perm⟩ := by
  unfold prodFinish
  rw [dedup_eq_singleton (g := some g)]
  · simpa [Counter.keys] using hne
  · intro x hx; obtain ⟨a, ha, rfl⟩ := mem_map.1 hx; exact h a ha

/-- `ProductRep(counter=self.reps)` is the same product in canonical order. -/
theorem mkProdC_wf {p : PRep} (h : p.WF W) : mkProdC W p.c = .ok ⟨p.c, range (p.size W)⟩ := by
  unfold mkProdC prodCompute
  have hu : unionKeys W.setOrder [p.c] = p.c.keys := rfl
  rw [hu, W.sorted_eq_self h.cnt.st h.cnt.sorted, prodCanon_self _ _ h.cnt.nodup h.cnt.pos _ (Perm.refl _)]
  obtain ⟨g, hg⟩ := h.grp
  exact prodFinish_ok h.cnt.ne hg

theorem Fac.canon_wf {f : Fac} (h : f.WF W) : Fac.canon W f = .ok (f.base W, f.permOf W) := by
  cases f with
  | atom a =>
    have h' : a.G.isSome = true := h
    simp only [Fac.canon]; rw [if_pos h']; rfl
  | prod p =>
    simp only [Fac.canon]
    rw [mkProdC_wf h]
    rfl

theorem PRep.WF.base {p : PRep} (h : p.WF W) : PRep.WF W ⟨p.c, range (p.size W)⟩ :=
  ⟨h.cnt, h.grp, Perm.refl _⟩

theorem Fac.WF.base {f : Fac} (h : f.WF W) : (f.base W).WF W := by
  cases f with
  | atom a => exact h
  | prod p => exact PRep.WF.base h

theorem Fac.base_base (f : Fac) : (f.base W).base W = f.base W := by
  cases f with
  | atom a => rfl
  | prod p => rfl

theorem Fac.size_base (f : Fac) : (f.base W).size W = f.size W := by
  cases f with
  | atom a => rfl
  | prod p => rfl

theorem Fac.counter_base (f : Fac) : (f.base W).counter = f.counter := by
  cases f <;> rfl

theorem Fac.G_base (f : Fac) : (f.base W).G = f.G := by
  cases f <;> rfl

theorem Fac.hashable_base (f : Fac) : (f.base W).hashable = true := by
  cases f with
  | atom a => rfl
  | prod p => simp [Fac.base, Fac.hashable, permCanonical, argsort_range]

theorem Fac.permOf_perm {f : Fac} (h : f.WF W) : f.permOf W ~ range (f.size W) := by
  cases f with
  | atom a => exact Perm.refl _
  | prod p => exact h.perm

theorem Fac.counter_size (f : Fac) : f.counter.prodSize (Atom.size W) = f.size W := by
  cases f with
  | atom a => simp [Fac.counter, Counter.prodSize, Fac.size]
  | prod p => rfl

/-- The keys of a counter are all the atoms of one group. -/
theorem Fac.counter_G {f : Fac} (h : f.WF W) : ∀ a ∈ f.counter.keys, a.G = f.G := by
  cases f with
  | atom a => simp [Fac.counter, Counter.keys, Fac.G]
  | prod p =>
    obtain ⟨g, hg⟩ := PRep.WF.grp h
    intro a ha
    rw [hg a ha]
    obtain ⟨kc, t, hc⟩ := exists_cons_of_ne_nil (PRep.WF.cnt h).ne
    have : p.G = some g := by
      simp only [PRep.G, hc, head?_cons, Option.bind_some]
      exact hg _ (by simp [hc, Counter.keys])
    exact this.symm

theorem Fac.G_some {f : Fac} (h : f.WF W) : ∃ g, f.G = some g := by
  cases f with
  | atom a => exact Option.isSome_iff_exists.1 h
  | prod p =>
    obtain ⟨g, hg⟩ := PRep.WF.grp h
    obtain ⟨kc, t, hc⟩ := exists_cons_of_ne_nil (PRep.WF.cnt h).ne
    refine ⟨g, ?_⟩
    simp only [Fac.G, PRep.G, hc, head?_cons, Option.bind_some]
    exact hg _ (by simp [hc, Counter.keys])

theorem Fac.counter_nodup {f : Fac} (h : f.WF W) : f.counter.keys.Nodup := by
  cases f with
  | atom a => simp [Fac.counter, Counter.keys]
  | prod p => exact (PRep.WF.cnt h).nodup

theorem Fac.counter_pos {f : Fac} (h : f.WF W) : ∀ kc ∈ f.counter, kc.2 ≠ 0 := by
  cases f with
  | atom a => simp [Fac.counter]
  | prod p => exact (PRep.WF.cnt h).pos

theorem Fac.counter_ne {f : Fac} (h : f.WF W) : f.counter ≠ [] := by
  cases f with
  | atom a => simp [Fac.counter]
  | prod p => exact (PRep.WF.cnt h).ne

/-- Factors as operands of the generic product theorem. -/
def facArg (W : World) (I : Interp R) (f : Fac) : ProdArg Atom R := ⟨f.counter, f.permOf W, (f.rho I).sem⟩

theorem facArg_ok (hI : I.Sized W) {f : Fac} (h : f.WF W) :
    (facArg W I f).OK (Atom.size W) fun a => (a.rho I).sem where
  perm := by simp only [facArg]; rw [Fac.counter_size]; exact Fac.permOf_perm h
  sq := by simp only [facArg]; rw [Fac.counter_size]; exact Fac.rho_sq hI h
  pick := by
    cases f with
    | atom a =>
      simp only [facArg, Fac.permOf, Fac.counter, Counter.expand, Fac.rho]
      have hs := Atom.rho_sq hI h
      simp only [flatMap_cons, flatMap_nil, replicate_one, append_nil, map_cons, map_nil, DMat.kronL, DMat.kron_one]
      conv_rhs => rw [← DMat.pick_range ((a.rho I).sem), hs.1, hs.2]
    | prod p => exact PRep.rho_pick hI h
  mat := by
    intro a ha
    simp only [facArg] at ha
    apply Atom.rho_sq hI
    rw [Fac.counter_G h a ha]
    obtain ⟨g, hg⟩ := Fac.G_some h
    rw [hg]; rfl
  nodup := Fac.counter_nodup h

/-- What the merged counter looks like. -/
theorem prodCompute_counter {cs : List (Counter Atom)} {ps : List (List ℕ)}
    (hne : ∃ c ∈ cs, c ≠ []) (hcn : ∀ c ∈ cs, c.keys.Nodup) (hpos : ∀ c ∈ cs, ∀ kc ∈ c, kc.2 ≠ 0)
    (hst : StrictTotalOn (Atom.lt W) (cs.flatMap Counter.keys)) :
    SortedCounter (Atom.lt W) (prodCompute W cs ps).1 ∧
    ∀ a, a ∈ (prodCompute W cs ps).1.keys ↔ ∃ c ∈ cs, a ∈ c.keys := by
  set u := W.sorted (Atom.lt W) (unionKeys W.setOrder cs) with hu
  have hum : ∀ a, a ∈ u ↔ ∃ c ∈ cs, a ∈ c.keys := by
    intro a; rw [hu, (W.sorted_perm _ _).mem_iff, mem_unionKeys]
  have hst' : StrictTotalOn (Atom.lt W) (unionKeys W.setOrder cs) := hst.mono fun a ha => by
    rw [mem_unionKeys] at ha; exact mem_flatMap.2 ha
  have hsort : u.Pairwise fun a b => Atom.lt W a b = true := W.sorted_ord _ _ (nodup_unionKeys W hcn) hst'
  have hstu : StrictTotalOn (Atom.lt W) u := hst'.of_perm (W.sorted_perm _ _).symm
  have hcount : ∀ k ∈ u, (cs.map fun c => c.get k).sum ≠ 0 := by
    intro k hk
    obtain ⟨c, hc, hkc⟩ := (hum k).1 hk
    obtain ⟨kn, hkn, rfl⟩ := mem_map.1 hkc
    have h1 := Counter.get_eq_of_mem (hcn c hc) (n := kn.2) hkn
    have h2 : c.get kn.1 ≤ (cs.map fun c => c.get kn.1).sum := List.le_sum_of_mem (mem_map_of_mem (f := fun c => Counter.get c kn.1) hc)
    have := hpos c hc kn hkn
    omega
  have hc1 : (prodCompute W cs ps).1 = u.map fun k => (k, (cs.map fun c => c.get k).sum) := by
    unfold prodCompute
    rw [prodCanon_counter, filter_eq_self]
    intro x hx
    obtain ⟨k, hk, rfl⟩ := mem_map.1 hx
    simpa using hcount k hk
  have hk : (prodCompute W cs ps).1.keys = u := by
    rw [hc1, Counter.keys, map_map]; simp [Function.comp_def]
  refine ⟨⟨?_, hk ▸ hstu, hk ▸ hsort, ?_⟩, fun a => by rw [hk]; exact hum a⟩
  · intro h0
    rw [h0] at hk
    obtain ⟨c, hc, hcne⟩ := hne
    obtain ⟨kn, t, rfl⟩ := exists_cons_of_ne_nil hcne
    have : kn.1 ∈ u := (hum _).2 ⟨_, hc, by simp [Counter.keys]⟩
    rw [← hk] at this; simp [Counter.keys] at this
  · rw [hc1]; intro x hx
    obtain ⟨k, hk, rfl⟩ := mem_map.1 hx
    exact hcount k hk

/-- The list of orderings for `extra_perm`. -/
def extraOf (extra : Option (List ℕ)) (n : ℕ) : List ℕ := extra.getD (range n)

theorem withExtra_eq {extra : Option (List ℕ)} {n : ℕ} {p : List ℕ} (hp : p ~ range n) :
    withExtra extra p = gather (extraOf extra n) p := by
  cases extra with
  | none => simp only [withExtra, extraOf, Option.getD_none]; rw [range_gather fun x hx => lt_of_perm_range hp hx]
  | some e => rfl

/-- The `ProductRep` constructor. -/
theorem mkProd_spec {ops : List Fac} (hne : ops ≠ []) (h : ∀ f ∈ ops, f.WF W) {g : Gid} (hg : ∀ f ∈ ops, f.G = some g)
    (hst : StrictTotalOn (Atom.lt W) (ops.flatMap fun f => f.counter.keys)) {extra : Option (List ℕ)}
    (hex : extraOf extra (ops.map (Fac.size W)).prod ~ range (ops.map (Fac.size W)).prod) :
    ∃ p, mkProd W ops extra = .ok p ∧ p.WF W ∧ p.G = some g ∧
      p.size W = (ops.map (Fac.size W)).prod ∧ (∀ a, a ∈ p.c.keys ↔ ∃ f ∈ ops, a ∈ f.counter.keys) ∧
      p.c = (prodCompute W (ops.map Fac.counter) (ops.map (Fac.permOf W))).1 ∧
      ∀ (R : Type) [CommRing R] (I : Interp R), I.Sized W → ∀ D : DMat R, D.IsSq (p.size W) →
        D.pick (extraOf extra (p.size W)) (extraOf extra (p.size W)) = DMat.kronL (ops.map fun f => (f.rho I).sem) →
        (p.rho I).sem = D := by
  obtain ⟨cs, hcs⟩ : ∃ cs, cs = ops.map Fac.counter := ⟨_, rfl⟩
  obtain ⟨ps, hps⟩ : ∃ ps, ps = ops.map (Fac.permOf W) := ⟨_, rfl⟩
  obtain ⟨r, hr⟩ : ∃ r, r = prodCompute W cs ps := ⟨_, rfl⟩
  have hcn : ∀ c ∈ cs, c.keys.Nodup := by
    rw [hcs]; intro c hc; obtain ⟨f, hf, rfl⟩ := mem_map.1 hc; exact Fac.counter_nodup (h f hf)
  have hpos : ∀ c ∈ cs, ∀ kc ∈ c, kc.2 ≠ 0 := by
    rw [hcs]; intro c hc; obtain ⟨f, hf, rfl⟩ := mem_map.1 hc; exact Fac.counter_pos (h f hf)
  have hcne : ∃ c ∈ cs, c ≠ [] := by
    obtain ⟨f, t, rfl⟩ := exists_cons_of_ne_nil hne
    exact ⟨f.counter, by simp [hcs], Fac.counter_ne (h f (by simp))⟩
  have hst' : StrictTotalOn (Atom.lt W) (cs.flatMap Counter.keys) := by
    rw [hcs, flatMap_map]; exact hst
  obtain ⟨hsc, hmem⟩ := prodCompute_counter (ps := ps) hcne hcn hpos hst'
  rw [← hr] at hsc hmem
  have hmem' : ∀ a, a ∈ r.1.keys ↔ ∃ f ∈ ops, a ∈ f.counter.keys := by
    intro a; rw [hmem, hcs]; simp
  have hG : ∀ a ∈ r.1.keys, a.G = some g := by
    intro a ha
    obtain ⟨f, hf, haf⟩ := (hmem' a).1 ha
    rw [Fac.counter_G (h f hf) a haf]; exact hg f hf
  have hmk : mkProd W ops extra = .ok ⟨r.1, withExtra extra r.2⟩ := by
    unfold mkProd
    have he : ops.isEmpty = false := by simpa using hne
    rw [he, mapM_ok fun f hf => Fac.canon_wf (h f hf)]
    show prodFinish (prodCompute W ((ops.map fun f => (f.base W, f.permOf W)).map fun c => c.1.counter)
      ((ops.map fun f => (f.base W, f.permOf W)).map (·.2))).1 (withExtra extra (prodCompute W ((ops.map fun f => (f.base W, f.permOf W)).map fun c => c.1.counter)
      ((ops.map fun f => (f.base W, f.permOf W)).map (·.2))).2) = _
    simp only [map_map, Function.comp_def, Fac.counter_base]
    rw [show (ops.map fun x => x.counter) = cs from hcs.symm, show (ops.map fun x => x.permOf W) = ps from hps.symm, ← hr]
    exact prodFinish_ok hsc.ne hG
  have gen : ∀ (R : Type) [CommRing R] (I : Interp R), I.Sized W →
      r.2 ~ range (r.1.prodSize (Atom.size W)) ∧
      (DMat.kronL (ops.map fun f => (f.rho I).sem)).IsSq (r.1.prodSize (Atom.size W)) ∧
      (DMat.kronL (ops.map fun f => (f.rho I).sem)).pick r.2 r.2 = DMat.kronL (r.1.expand.map fun a => (a.rho I).sem) := by
    intro R _ I hI
    have hu : (W.sorted (Atom.lt W) (unionKeys W.setOrder cs)).Nodup :=
      (W.sorted_perm _ _).nodup_iff.2 (nodup_unionKeys W hcn)
    have := prodCanon_mat (size := Atom.size W) hu (mat := fun a => (a.rho I).sem) (ops.map (facArg W I))
      (by intro a ha; obtain ⟨f, hf, rfl⟩ := mem_map.1 ha; exact facArg_ok hI (h f hf))
      (by
        intro a ha k hk; obtain ⟨f, hf, rfl⟩ := mem_map.1 ha
        rw [(W.sorted_perm _ _).mem_iff, mem_unionKeys]
        exact ⟨f.counter, by rw [hcs]; exact mem_map_of_mem hf, hk⟩)
    simp only [map_map, Function.comp_def, facArg] at this
    rw [show (ops.map fun x => x.counter) = cs from hcs.symm, show (ops.map fun x => x.permOf W) = ps from hps.symm] at this
    rw [hr]
    exact this
  -- sizes
  let I0 : Interp ℤ := ⟨fun k g => .eye (W.asize k (g.getD 0)), fun k g => .eye (W.asize k (g.getD 0))⟩
  have hI0 : I0.Sized W := ⟨fun k g => ⟨rfl, rfl⟩, fun k g => ⟨rfl, rfl⟩⟩
  obtain ⟨q1, q2, -⟩ := gen ℤ I0 hI0
  have hsize : r.1.prodSize (Atom.size W) = (ops.map (Fac.size W)).prod := by
    rw [← q2.1, (kronL_isSq ops _ (Fac.size W) fun f hf => Fac.rho_sq hI0 (h f hf)).1]
  rw [← hsize] at hex
  have hperm : withExtra extra r.2 ~ range (r.1.prodSize (Atom.size W)) := by
    rw [withExtra_eq q1]; exact gather_perm hex q1
  have hwf : PRep.WF W ⟨r.1, withExtra extra r.2⟩ := ⟨hsc, ⟨g, hG⟩, hperm⟩
  refine ⟨_, hmk, hwf, ?_, hsize, hmem', by rw [hr, hcs, hps], ?_⟩
  · obtain ⟨kc, t, hc⟩ := exists_cons_of_ne_nil hsc.ne
    simp only [PRep.G, hc, head?_cons, Option.bind_some]
    exact hG _ (by simp [hc, Counter.keys])
  · intro R _ I hI D hD hpick
    obtain ⟨p1, p2, p3⟩ := gen R I hI
    apply conjPerm_eq hperm (PRep.kron_sq hI hwf) hD
    simp only [LinOp.sem, semL_map]
    rw [withExtra_eq p1, ← p3, ← hpick]
    have hb : ∀ x ∈ r.2, x < (extraOf extra (r.1.prodSize (Atom.size W))).length := by
      intro x hx; rw [length_of_perm_range hex]; exact lt_of_perm_range p1 hx
    rw [show PRep.size W ⟨r.1, withExtra extra r.2⟩ = r.1.prodSize (Atom.size W) from rfl]
    exact (DMat.pick_pick D hb hb).symm

/-- Without `extra_perm`: the matrix of the product is the Kronecker product of the operands' matrices. -/
theorem mkProd_spec_none {ops : List Fac} (hne : ops ≠ []) (h : ∀ f ∈ ops, f.WF W) {g : Gid} (hg : ∀ f ∈ ops, f.G = some g)
    (hst : StrictTotalOn (Atom.lt W) (ops.flatMap fun f => f.counter.keys)) :
    ∃ p, mkProd W ops none = .ok p ∧ p.WF W ∧ p.G = some g ∧
      p.size W = (ops.map (Fac.size W)).prod ∧ (∀ a, a ∈ p.c.keys ↔ ∃ f ∈ ops, a ∈ f.counter.keys) ∧
      p.c = (prodCompute W (ops.map Fac.counter) (ops.map (Fac.permOf W))).1 ∧
      ∀ (R : Type) [CommRing R] (I : Interp R), I.Sized W →
        (p.rho I).sem = DMat.kronL (ops.map fun f => (f.rho I).sem) := by
  obtain ⟨p, h1, h2, h3, h4, h5, h6, h7⟩ := mkProd_spec hne h hg hst (extra := none) (Perm.refl _)
  refine ⟨p, h1, h2, h3, h4, h5, h6, fun R _ I hI => ?_⟩
  have hsq := kronL_isSq ops (fun f => (f.rho I).sem) (Fac.size W) fun f hf => Fac.rho_sq hI (h f hf)
  rw [← h4] at hsq
  apply h7 R I hI _ hsq
  simp only [extraOf, Option.getD_none]
  conv_rhs => rw [← DMat.pick_range (DMat.kronL (ops.map fun f => (f.rho I).sem)), hsq.1, hsq.2]

end Verif
