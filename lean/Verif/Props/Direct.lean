import Verif.Lemmas.MultiExpr
import Verif.Lemmas.Terms
import Verif.Props.ExampleInterp

/-!
# Products over several groups

`W` is arbitrary (group hashes, hash values, set order, `sorted`); `I` carries one matrix per group, i.e. the dictionary
`{G1:M1,G2:M2,…}` passed to `rho`.
-/
namespace Verif
open List

variable {W : World}

/-! ### C04 -/

/-- **C04.** The constructor `ProductRep(r1,r2,…)`, which is for representations of one group, raises `AssertionError` when two of the
factors belong to different groups, for every comparison, ordering and `extra_perm`. -/
theorem C04_product_rep_raises {ops : List Fac} (h : ∀ f ∈ ops, f.WF W) {f f' : Fac} (hf : f ∈ ops) (hf' : f' ∈ ops) (hG : f.G ≠ f'.G)
    (extra : Option (List ℕ)) : mkProd W ops extra = .error .assertion := by
  have hmem : ∀ (ps : List (List ℕ)) f, f ∈ ops → ∃ a ∈ (prodCompute W (ops.map Fac.counter) ps).1.keys, a.G = f.G := by
    intro ps f hf
    obtain ⟨kn, t, e⟩ := exists_cons_of_ne_nil (Fac.counter_ne (h f hf))
    have hkn : kn ∈ f.counter := by rw [e]; simp
    have hk : kn.1 ∈ f.counter.keys := mem_map_of_mem (f := Prod.fst) hkn
    refine ⟨kn.1, ?_, Fac.counter_G (h f hf) _ hk⟩
    have hc : f.counter ∈ ops.map Fac.counter := mem_map_of_mem hf
    unfold prodCompute
    rw [prodCanon_counter]
    refine mem_map.2 ⟨(kn.1, ((ops.map Fac.counter).map fun c => c.get kn.1).sum), mem_filter.2 ⟨mem_map.2 ⟨kn.1, ?_, rfl⟩, ?_⟩, rfl⟩
    · rw [(W.sorted_perm _ _).mem_iff, mem_unionKeys]; exact ⟨_, hc, hk⟩
    · have h1 := Counter.get_eq_of_mem (Fac.counter_nodup (h f hf)) (n := kn.2) hkn
      have h2 : f.counter.get kn.1 ≤ ((ops.map Fac.counter).map fun c => c.get kn.1).sum :=
        List.le_sum_of_mem (mem_map_of_mem (f := fun c => Counter.get c kn.1) hc)
      have := Fac.counter_pos (h f hf) kn hkn
      simp only [decide_not, Bool.not_eq_eq_eq_not, Bool.not_true, decide_eq_false_iff_not]
      omega
  unfold mkProd
  have he : ops.isEmpty = false := by simpa using ne_nil_of_mem hf
  rw [he, mapM_ok fun f hf => Fac.canon_wf (h f hf)]
  show prodFinish (prodCompute W ((ops.map fun f => (f.base W, f.permOf W)).map fun c => c.1.counter)
    ((ops.map fun f => (f.base W, f.permOf W)).map (·.2))).1 (withExtra extra (prodCompute W ((ops.map fun f => (f.base W, f.permOf W)).map fun c => c.1.counter)
    ((ops.map fun f => (f.base W, f.permOf W)).map (·.2))).2) = _
  simp only [map_map, Function.comp_def, Fac.counter_base]
  obtain ⟨a, ha, hag⟩ := hmem (ops.map fun x => x.permOf W) f hf
  obtain ⟨b, hb, hbg⟩ := hmem (ops.map fun x => x.permOf W) f' hf'
  unfold prodFinish
  have h1 : a.G ∈ ((prodCompute W (ops.map Fac.counter) (ops.map fun x => x.permOf W)).1.keys.map Atom.G).dedup := mem_dedup.2 (mem_map_of_mem ha)
  have h2 : b.G ∈ ((prodCompute W (ops.map Fac.counter) (ops.map fun x => x.permOf W)).1.keys.map Atom.G).dedup := mem_dedup.2 (mem_map_of_mem hb)
  split
  · rename_i x hx
    have e1 : a.G = x := by simpa [hx] using h1
    have e2 : b.G = x := by simpa [hx] using h2
    exact absurd (hag.symm.trans (e1.trans (e2.symm.trans hbg))) hG
  · rfl

/-- For example `ProductRep(V(G0),V(G3))`. -/
example (extra : Option (List ℕ)) : mkProd exW [.atom (.vec 0 (some 0)), .atom (.vec 0 (some 3))] extra = .error .assertion :=
  C04_product_rep_raises (f := .atom (.vec 0 (some 0))) (f' := .atom (.vec 0 (some 3)))
    (by intro f hf; simp only [mem_cons, not_mem_nil, or_false] at hf; rcases hf with rfl | rfl <;> rfl) (by simp) (by simp) (by decide) extra

/-- **C04**, `DirectProduct(r1,r2,…)` of representations of pairwise different groups, with no assumption on the comparison of
representations: the construction succeeds, `rho` is the Kronecker product in the order written and `drho` the
Kronecker sum. -/
theorem C04_distinct_groups {fs : List Fac} (hne : fs ≠ []) (hwf : ∀ f ∈ fs, f.WF W) (hG : (fs.map Fac.G).Nodup) :
    ∃ d, mkDirect W (fs.map .fac) none = .ok d ∧ d.size W = (fs.map (Fac.size W)).prod ∧
      ∀ (R : Type) [CommRing R] (I : Interp R), I.Sized W →
        (d.rho I).sem = DMat.kronL (fs.map fun f => (f.rho I).sem) ∧
        (d.drho I).sem = DMat.kronsumL (fs.map fun f => (f.drho I).sem) := by
  have hops : ∀ k ∈ fs.map Key.fac, k.WF W ∧ k ≠ .scalar := by
    intro k hk; obtain ⟨f, hf, rfl⟩ := mem_map.1 hk; exact ⟨hwf f hf, by simp⟩
  have hinj : ∀ f ∈ fs, ∀ g ∈ fs, f.G = g.G → f = g := fun f hf g hg e => inj_on_of_nodup_map hG hf hg e
  obtain ⟨cs, hcs⟩ : ∃ cs, cs = (fs.map Key.fac).map (Key.dcnt W) := ⟨_, rfl⟩
  have hcs' : cs = fs.map fun f => [(f.base W, 1)] := by rw [hcs, map_map]; rfl
  have hcn : ∀ c ∈ cs, c.keys.Nodup := by
    rw [hcs']; intro c hc; obtain ⟨f, -, rfl⟩ := mem_map.1 hc; simp [Counter.keys]
  obtain ⟨l, hl⟩ : ∃ l, l = W.sorted (Fac.lt W) (unionKeys W.setOrder cs) := ⟨_, rfl⟩
  have hlm : ∀ x, x ∈ l ↔ ∃ f ∈ fs, f.base W = x := by
    intro x
    rw [hl, (W.sorted_perm _ _).mem_iff, mem_unionKeys, hcs']
    simp only [mem_map, Counter.keys]
    constructor
    · rintro ⟨c, ⟨f, hf, rfl⟩, h⟩
      simp only [mem_map, mem_singleton] at h
      obtain ⟨_, rfl, rfl⟩ := h
      exact ⟨f, hf, rfl⟩
    · rintro ⟨f, hf, rfl⟩
      exact ⟨_, ⟨f, hf, rfl⟩, (f.base W, 1), by simp, rfl⟩
  have hln : l.Nodup := by rw [hl, (W.sorted_perm _ _).nodup_iff]; exact nodup_unionKeys W hcn
  have hlG : (l.map Fac.G).Nodup := by
    refine Nodup.map_on ?_ hln
    intro x hx y hy e
    obtain ⟨f, hf, rfl⟩ := (hlm x).1 hx
    obtain ⟨g, hg, rfl⟩ := (hlm y).1 hy
    rw [Fac.G_base, Fac.G_base] at e
    rw [hinj f hf g hg e]
  have hc : (dprodCompute W ((fs.map Key.fac).map (Key.dcnt W)) ((fs.map Key.fac).map (Key.permOf W))).1 = l.map fun f => (f, 1) := by
    rw [← hcs, dprodCompute_counter hcn, ← hl]
    · refine map_congr_left fun x hx => ?_
      obtain ⟨f, hf, rfl⟩ := (hlm x).1 hx
      congr 1
      rw [hcs', map_map]
      have : ∀ t : List Fac, (t.map Fac.G).Nodup → (∀ g ∈ t, g ∈ fs) → f ∈ t →
          (t.map ((fun c => Counter.get c (f.base W)) ∘ fun f => [(f.base W, 1)])).sum = 1 := by
        intro t
        induction t with
        | nil => simp
        | cons a t ih =>
          intro hn hsub hmem
          simp only [map_cons, nodup_cons] at hn
          simp only [map_cons, sum_cons, Function.comp]
          by_cases ha : a = f
          · subst ha
            have h0 : (t.map ((fun c => Counter.get c (a.base W)) ∘ fun f => [(f.base W, 1)])).sum = 0 := by
              rw [sum_eq_zero_iff]
              intro n hn'
              obtain ⟨b, hb, rfl⟩ := mem_map.1 hn'
              have : b.base W ≠ a.base W := fun e => hn.1 (by
                have := congrArg Fac.G e
                rw [Fac.G_base, Fac.G_base] at this
                exact this ▸ mem_map_of_mem hb)
              exact Counter.get_single_ne this
            simp only [Function.comp_def] at h0 ⊢
            rw [h0, Counter.get_single]
          · have hne' : a.base W ≠ f.base W := fun e => ha (hinj a (hsub a (by simp)) f hf (by
              have := congrArg Fac.G e
              rwa [Fac.G_base, Fac.G_base] at this))
            have := ih hn.2 (fun g hg => hsub g (by simp [hg])) (by
              rcases mem_cons.1 hmem with h | h
              · exact absurd h.symm ha
              · exact h)
            simp only [Function.comp_def] at this ⊢
            rw [this, Counter.get_single_ne hne']
      exact this fs hG (fun _ h => h) hf
    · rw [hcs']; intro c hc kc hkc; obtain ⟨f, -, rfl⟩ := mem_map.1 hc
      rw [mem_singleton] at hkc; rw [hkc]; exact one_ne_zero
  have hexp : Counter.expand (l.map fun f => (f, 1)) = l := by
    simp [Counter.expand, flatMap_map]
  have hok : GroupOK W (dprodCompute W ((fs.map Key.fac).map (Key.dcnt W)) ((fs.map Key.fac).map (Key.permOf W))).1
      (l.map fun f => (f.G, f)) := by
    refine ⟨?_, ?_, ?_, ?_, ?_⟩
    · rw [hc, groupLoop_distinct l [] hlG (by simp)]; rfl
    · intro x hx; obtain ⟨y, hy, rfl⟩ := mem_map.1 hx; obtain ⟨f, hf, rfl⟩ := (hlm y).1 hy; exact Fac.WF.base (hwf f hf)
    · intro x hx; obtain ⟨y, hy, rfl⟩ := mem_map.1 hx; obtain ⟨f, hf, rfl⟩ := (hlm y).1 hy; exact Fac.hashable_base f
    · rw [map_map]; simpa [Function.comp_def] using hln
    · intro R _ I hI; rw [hc, hexp, map_map]; rfl
  obtain ⟨d, d1, d2, d3, -, d5⟩ := mkDirect_core_none (by simpa using hne) hops hok
  have hmat : ∀ (R : Type) [CommRing R] (I : Interp R), I.Sized W → (d.rho I).sem = DMat.kronL (fs.map fun f => (f.rho I).sem) := by
    intro R _ I hI
    rw [d5 R I hI, map_map]; rfl
  refine ⟨d, d1, by rw [d3, map_map]; rfl, fun R _ I hI => ⟨hmat R I hI, ?_⟩⟩
  have hs : ∀ f ∈ fs, (f.drho I).sem.IsSq (f.size W) := fun f hf => Fac.drho_sq hI (hwf f hf)
  have h1 := d2.eps_rho hI
  rw [hmat _ I.eps hI.eps, map_congr_left (g := fun f => (f.drho I).sem.eps) fun f hf => Fac.eps_rho hI (hwf f hf),
    ← DMat.eps_kronL _ _ (Fac.size W) hs] at h1
  exact (DMat.eps_inj h1).symm

/-- `r1*r2` for representations of two different groups, with no assumption on the comparison of representations. -/
theorem C04_pair {f g : Fac} (hf : f.WF W) (hg : g.WF W) (hG : f.G ≠ g.G) :
    ∃ d, Rep.mul W (.key (.fac f)) (.key (.fac g)) = .ok (.key (.dprod d)) ∧ d.size W = f.size W * g.size W ∧
      ∀ (R : Type) [CommRing R] (I : Interp R), I.Sized W →
        (d.rho I).sem = DMat.kron (f.rho I).sem (g.rho I).sem ∧
        (d.drho I).sem = DMat.kronsum (f.drho I).sem (g.drho I).sem := by
  obtain ⟨d, d1, d2, d3⟩ := C04_distinct_groups (W := W) (fs := [f, g]) (by simp) (by simp [hf, hg]) (by simp [hG])
  refine ⟨d, ?_, by simpa using d2, fun R _ I hI => ?_⟩
  · have h1 : (Key.fac f).concrete = true := Rep.WF.concrete (W := W) (r := .key (.fac f)) hf
    have h2 : (Key.fac g).concrete = true := Rep.WF.concrete (W := W) (r := .key (.fac g)) hg
    have h3 : Key.mul W (.fac f) (.fac g) = .ok (.dprod d) := by
      simp only [Key.mul]
      rw [if_neg hG]
      simp only [map_cons, map_nil] at d1
      rw [d1]; rfl
    have : Rep.mul W (.key (.fac f)) (.key (.fac g)) = (if (Key.fac f).concrete && (Key.fac g).concrete then do
        let r ← Key.mul W (.fac f) (.fac g)
        .ok (.key r)
      else mkDeferredProd [.key (.fac f), .key (.fac g)] : Py Rep) := rfl
    rw [this, h1, h2, h3]; rfl
  · obtain ⟨h1, h2⟩ := d3 R I hI
    refine ⟨by rw [h1]; simp [DMat.kronL, DMat.kron_one], ?_⟩
    have hs := Fac.drho_sq hI hg
    rw [h2]
    apply DMat.eps_inj
    have hq := DMat.eps_kronL [f, g] (fun f => (f.drho I).sem) (Fac.size W) (by
      intro x hx
      simp only [mem_cons, not_mem_nil, or_false] at hx
      rcases hx with rfl | rfl
      exacts [Fac.drho_sq hI hf, hs])
    rw [hq, DMat.eps_kron (Fac.drho_sq hI hf) hs]
    simp [DMat.kronL, DMat.kron_one]

/-- `(V(G1)*V(G1).T) * (V(G2)*V(G2))` with `G1` like `SL(2)` and `G2` like `O(2)`. -/
example : ∃ d, Rep.mul exW (.key (.fac (.prod ⟨[(.vec 0 (some 1), 1), (.dual 0 (some 1), 1)], range 4⟩)))
    (.key (.fac (.prod ⟨[(.vec 0 (some 3), 2)], range 4⟩))) = .ok (.key (.dprod d)) ∧ d.size exW = 16 := by
  have h : ∀ l : List Atom, (∀ a ∈ l, a = .vec 0 (some 1) ∨ a = .dual 0 (some 1)) → StrictTotalOn (Atom.lt exW) l := by
    intro l hl
    apply StrictTotalOn.of_rank (β := ℕ) fun a => if a = .vec 0 (some 1) then 0 else 1
    · intro a ha b hb
      rcases hl a ha with rfl | rfl <;> rcases hl b hb with rfl | rfl <;> decide +kernel
    · intro a ha b hb
      rcases hl a ha with rfl | rfl <;> rcases hl b hb with rfl | rfl <;> decide +kernel
  obtain ⟨d, h1, h2, -⟩ := C04_pair (W := exW) (f := .prod ⟨[(.vec 0 (some 1), 1), (.dual 0 (some 1), 1)], range 4⟩)
    (g := .prod ⟨[(.vec 0 (some 3), 2)], range 4⟩)
    ⟨⟨by simp, h _ (by simp [Counter.keys]), by simp [Counter.keys]; decide +kernel, by simp⟩, ⟨1, by simp [Counter.keys, Atom.G]⟩, Perm.refl _⟩
    ⟨⟨by simp, StrictTotalOn.const (a := .vec 0 (some 3)) (by decide +kernel) (by simp [Counter.keys]), by simp [Counter.keys], by simp⟩, ⟨3, by simp [Counter.keys, Atom.G]⟩, Perm.refl _⟩
    (by decide)
  exact ⟨d, h1, h2.trans (by decide +kernel)⟩

variable {Γ : Gid → Prop} {κ : Gid → ℕ} {g0 : Gid} {N : ℕ}

/-- **C04 (partial)**, further products: every product of representations `V(G)` (or one user-defined representation per
group) over any number of groups, in any order and bracketing, with repetitions, evaluates without error; `rho` is the Kronecker
product of the factors in the order written, `drho` the Kronecker sum.
Full statement: the same for products that also mix a representation with its dual.  That is false
(`C04_counterexample_raises`, `C04_counterexample_order`). -/
theorem C04_products_partial (hΓ : W.GroupsOK Γ κ) (m : Mono) (h : ∀ g ∈ m.groups, Γ g) :
    ∃ r, m.eval W κ = .ok r ∧ r.size W = m.dim W κ ∧
      ∀ (R : Type) [CommRing R] (I : Interp R), I.Sized W →
        (∃ L, r.rho I = .ok L ∧ L.sem = (m.den κ I).1) ∧ ∃ L, r.drho I = .ok L ∧ L.sem = (m.dden κ I).1 := by
  obtain ⟨k, h1, h2, -, h4, -, h6, h7⟩ := Mono.eval_good hΓ m h
  exact ⟨.key k, h1, h4, fun R _ I hI => ⟨⟨_, rfl, h6 R I hI⟩, ⟨_, rfl, h7 R I hI⟩⟩⟩

theorem exW_groups : exW.GroupsOK (fun _ => True) fun _ => 0 where
  two g _ := by simp only [World.asize, exW]; split_ifs <;> omega
  inj g h _ _ e := by simpa [exW] using e

/-- `V(G1)*V(G3)*V(G1)*(V(G0)*V(G3))`. -/
example : ∃ r, Mono.eval exW (fun _ => 0) (.mul (.mul (.mul (.rep 1) (.rep 3)) (.rep 1)) (.mul (.rep 0) (.rep 3))) = .ok r ∧
    r.size exW = 48 := by
  obtain ⟨r, h1, h2, -⟩ := C04_products_partial exW_groups (.mul (.mul (.mul (.rep 1) (.rep 3)) (.rep 1)) (.mul (.rep 0) (.rep 3))) (by simp)
  exact ⟨r, h1, h2.trans (by decide +kernel)⟩

/-- **C04 (partial)**, duals: the dual of every product over groups that are all flagged orthogonal, or all not, has the
Kronecker product of the duals.  Missing: products over orthogonal and other groups together. -/
theorem C04_dual_partial (hΓ : W.GroupsOK Γ κ) (ho : (∀ g, Γ g → W.orth g = true) ∨ ∀ g, Γ g → W.orth g = false)
    (m : Mono) (h : ∀ g ∈ m.groups, Γ g) :
    ∃ r t, m.eval W κ = .ok r ∧ Rep.T W r = .ok t ∧ t.size W = m.dim W κ ∧
      (∀ (R : Type) [CommRing R] (I : Interp R), I.Dual W → ∃ L, t.rho I = .ok L ∧ L.sem = (m.den κ I).2) ∧
      ∀ (R : Type) [CommRing R] (I : Interp R), I.DDual W → ∃ L, t.drho I = .ok L ∧ L.sem = (m.dden κ I).2 := by
  obtain ⟨k, h1, h2, h3, h4, -, h6, h7⟩ := Mono.eval_good hΓ m h
  obtain ⟨r, r1, r2, -, r4, r5, -⟩ := hΓ.letters.dual (hΓ.letters_dual ho) k h2 h3
  have hm : ∀ (R : Type) [CommRing R] (I : Interp R), I.Dual W → (r.rho I).sem = (m.den κ I).2 := by
    intro R _ I hI
    have hp := m.den_pair (W := W) (κ := κ) hI
    have hsq := Key.rho_sq hI.toSized r2
    have h5 := r5 R I hI
    rw [h6 R I hI.toSized, h4] at h5
    rw [r4, h4] at hsq
    exact DMat.invT_unique hsq hp.sq2 hp.sq1 h5 hp.inv
  refine ⟨.key k, .key r, h1, ?_, r4.trans h4, fun R _ I hI => ⟨_, rfl, hm R I hI⟩, fun R _ I hI => ⟨_, rfl, ?_⟩⟩
  · simp only [Rep.T]; rw [r1]; rfl
  · have := Rep.eps_mat hI.sized (r := .key r) r2
    apply DMat.eps_inj
    show (Rep.dmat I (.key r)).eps = _
    rw [← this, (m.dden_eps hI).e2]
    exact hm _ _ hI.eps

/-- `(V(G0)*V(G3)*V(G0)).T` with `G0`, `G3` like `SO(3)`, `O(2)`. -/
example : ∃ r t, Mono.eval exW (fun _ => 0) (.mul (.mul (.rep 0) (.rep 3)) (.rep 0)) = .ok r ∧ Rep.T exW r = .ok t ∧ t.size exW = 18 := by
  obtain ⟨r, t, h1, h2, h3, -⟩ := C04_dual_partial (W := exW) (Γ := fun g => g = 0 ∨ g = 3) (κ := fun _ => 0)
    ⟨fun g _ => exW_groups.two g trivial, fun g h _ _ => exW_groups.inj g h trivial trivial⟩
    (Or.inl (by rintro g (rfl | rfl) <;> rfl)) (.mul (.mul (.rep 0) (.rep 3)) (.rep 0)) (by simp [Mono.groups])
  exact ⟨r, t, h1, h2, h3.trans (by decide +kernel)⟩

/-- **C04 (partial)**, sums of products over several groups: direct sums, products, duals, multiples and linear maps of such
products denote block diagonals and Kronecker products in the order written, provided at most one group occurs in a summand
alone, and duals are taken only when all groups are flagged orthogonal.
The first restriction is necessary (`C01_counterexample_groups`). -/
theorem C04_sums_partial (hW : W.MultiOK Γ κ g0 N) (e : MExpr) (h : e.OK W Γ g0) (hN : e.bound W κ ≤ N) :
    ∃ r, e.eval W κ = .ok r ∧ r.size W = e.dim W κ ∧
      (∀ (R : Type) [CommRing R] (I : Interp R), I.Dual W → ∃ L, r.rho I = .ok L ∧ L.sem = (e.den κ I).1) ∧
      ∀ (R : Type) [CommRing R] (I : Interp R), I.DDual W → ∃ L, r.drho I = .ok L ∧ L.sem = (e.dden κ I).1 := by
  obtain ⟨r, hr, hwf, -, hsz, hm⟩ := MExpr.eval_good hW e h hN
  refine ⟨r, hr, hsz, fun R _ I hI => ?_, fun R _ I hI => ?_⟩
  · obtain ⟨L, hL, hLm⟩ := Rep.rho_wf (I := I) hwf
    exact ⟨L, hL, hLm.trans (hm R I hI)⟩
  · have : r.dmat I = (e.dden κ I).1 := by
      apply DMat.eps_inj
      rw [← Rep.eps_mat hI.sized hwf, (e.dden_eps hI).e1]
      exact hm _ _ hI.eps
    match r, hwf, this with
    | .key k, _, this => exact ⟨_, rfl, this⟩
    | .sum s, _, this => exact ⟨_, rfl, this⟩

theorem exW_multi (N : ℕ) (hN : 1 ≤ N) : exW.MultiOK (fun g => g = 0 ∨ g = 3) (fun _ => 0) 0 N where
  two g _ := exW_groups.two g trivial
  inj g h _ _ := exW_groups.inj g h trivial trivial
  pos := hN
  hinj _ _ _ _ h := exW_hash_inj h
  sG h hs := by simp [exW] at hs

/-- `2*V(G0) + V(G0)*V(G3) >> (V(G3)*V(G0)*V(G3) + Scalar).T * V(G0)`. -/
example : ∃ r, MExpr.eval exW (fun _ => 0) (.rshift (.add (.nsmul 2 (.of (.rep 0))) (.of (.mul (.rep 0) (.rep 3))))
    (.mul (.dual (.add (.of (.mul (.mul (.rep 3) (.rep 0)) (.rep 3))) (.of .scalar))) (.of (.rep 0)))) = .ok r ∧ r.size exW = 468 := by
  obtain ⟨r, h1, h2, -⟩ := C04_sums_partial (exW_multi 1000 (by omega)) (.rshift (.add (.nsmul 2 (.of (.rep 0))) (.of (.mul (.rep 0) (.rep 3))))
    (.mul (.dual (.add (.of (.mul (.mul (.rep 3) (.rep 0)) (.rep 3))) (.of .scalar))) (.of (.rep 0))))
    (by simp [MExpr.OK, Mono.groups, exW]) (by decide +kernel)
  exact ⟨r, h1, h2.trans (by decide +kernel)⟩

/-! ### Counterexamples -/

/-- The call raised `e`. -/
def Py.raised {α : Type} (e : PyErr) : Py α → Bool
  | .error e' => e == e'
  | .ok _ => false

theorem Py.eq_error {α : Type} {e : PyErr} {x : Py α} (h : Py.raised e x = true) : x = .error e := by
  cases x with
  | error e' => simp only [Py.raised, beq_iff_eq] at h; rw [h]
  | ok _ => simp [Py.raised] at h

/-- **C04 fails** by an exception: `(V(G).T*V(H))*(V(G)*V(G))` raises `AssertionError` for `G` like `SL(2)`, `H` like `O(2)`:
while regrouping, `V(G).T*(V(G)*V(G))` gets a permutation that is not its own inverse and cannot be hashed. -/
theorem C04_counterexample_raises : (do
    let a ← Rep.mul exW (.key (.atom (.dual 0 (some 1)))) (.key (.atom (.vec 0 (some 3))))
    let b ← Rep.mul exW (.key (.atom (.vec 0 (some 1)))) (.key (.atom (.vec 0 (some 1))))
    Rep.mul exW a b) = .error .assertion := by
  apply Py.eq_error
  decide +kernel

/-- The example environment with another iteration order of sets. -/
def exRevSet : World := { exW with setOrder := fun l => l.reverse, setOrder_perm := fun l => List.reverse_perm l }

theorem exI_dual_revSet (x : ℤ) : (exI x).Dual exRevSet where
  vec := (exI_dual x).vec
  dual := (exI_dual x).dual
  inv := (exI_dual x).inv
  orth := (exI_dual x).orth

/-- An entry of `rho`. -/
def repEntry (I : Interp ℤ) (x : Py Rep) (i j : ℕ) : Option ℤ :=
  match x with
  | .ok r => some ((r.mat I).e i j)
  | .error _ => none

/-- **C04 fails** silently: when the set of factors happens to be iterated in reverse, `(V(G)*V(H))*V(G).T` is sorted as
`V(G), V(H), V(G).T`, and the matrix is that of `V(G)⊗V(G).T⊗V(H)`.  `exI 5` is a shear on `G` (with its inverse transpose on the
dual, `exI_dual_revSet`) and the identity on `H`; the entries at `(1,0)` differ. -/
theorem C04_counterexample_order :
    repEntry (exI 5) (do
      let a ← Rep.mul exRevSet (.key (.atom (.vec 0 (some 1)))) (.key (.atom (.vec 0 (some 3))))
      Rep.mul exRevSet a (.key (.atom (.dual 0 (some 1))))) 1 0 = some 0 ∧
    (DMat.kron (DMat.kron ((exI 5).vec 0 (some 1)).sem ((exI 5).vec 0 (some 3)).sem) ((exI 5).dual 0 (some 1)).sem).e 1 0 = -5 := by
  decide +kernel

/-- **C01** without any assumption on the comparison: the direct sum of representations that are not sums themselves, over any
groups, is block diagonal in the order written. -/
theorem C01_terms {ks : List Key} (hne : ks ≠ []) (hk : ∀ k ∈ ks, k.WF W) :
    ∃ s, mkSum W (ks.map .key) none = .ok s ∧ s.size W = (ks.map (Key.size W)).sum ∧
      ∀ (R : Type) [CommRing R] (I : Interp R), I.Sized W →
        (s.rho I).sem = DMat.bdiag (ks.map fun k => (k.rho I).sem) ∧
        (s.drho I).sem = DMat.bdiag (ks.map fun k => (k.drho I).sem) :=
  mkSum_terms hne hk

/-- `V(G1).T + V(G3) + Scalar + V(G1)`. -/
example : ∃ s, mkSum exRevSet ([.atom (.dual 0 (some 1)), .atom (.vec 0 (some 3)), .scalar, .atom (.vec 0 (some 1))].map .key) none = .ok s ∧
    s.size exRevSet = 7 := by
  obtain ⟨s, h1, h2, -⟩ := C01_terms (W := exRevSet) (ks := [.atom (.dual 0 (some 1)), .atom (.vec 0 (some 3)), .scalar, .atom (.vec 0 (some 1))])
    (by simp) (by
      intro k hk
      simp only [mem_cons, not_mem_nil, or_false] at hk
      rcases hk with rfl | rfl | rfl | rfl
      exacts [rfl, rfl, trivial, rfl])
  exact ⟨s, h1, h2.trans (by decide +kernel)⟩

/-- Rotating a list by one. -/
def rotate1 {α : Type} : List α → List α
  | [] => []
  | a :: l => l ++ [a]

theorem rotate1_perm {α : Type} (l : List α) : rotate1 l ~ l := by
  cases l with
  | nil => exact .refl _
  | cons a l => exact perm_append_singleton a l

/-- The example environment with a third iteration order of sets. -/
def exRot : World := { exW with setOrder := fun l => rotate1 l, setOrder_perm := fun l => rotate1_perm l }

theorem exI_dual_rot (x : ℤ) : (exI x).Dual exRot where
  vec := (exI_dual x).vec
  dual := (exI_dual x).dual
  inv := (exI_dual x).inv
  orth := (exI_dual x).orth

/-- **C01 fails** for summands of several groups: `V(G)*V(G) < V(H)` (by the hash of the group), `V(H) < V(G)*V(H)` and
`V(G)*V(H) < V(G)*V(G)` (by size) when `dim G = 3`, `dim H = 2`; for some iteration order of sets the nested sum
`(V(G)*V(G) + V(H)) + V(G)*V(H)` misplaces coordinates: the shear of `H` is not found in rows and columns `9,10`. -/
theorem C01_counterexample_groups :
    repEntry (exI 5) (do
      let a ← Rep.mul exRot (.key (.atom (.vec 0 (some 0)))) (.key (.atom (.vec 0 (some 0))))
      let b ← Rep.mul exRot (.key (.atom (.vec 0 (some 0)))) (.key (.atom (.vec 0 (some 1))))
      let c ← Rep.add exRot a (.key (.atom (.vec 0 (some 1))))
      Rep.add exRot c b) 9 10 = some 0 ∧
    ((exI 5).vec 0 (some 1)).sem.e 0 1 = 5 := by
  decide +kernel

/-- **C15 fails** across groups: the comparison is cyclic. -/
theorem C15_counterexample_cycle :
    let x : Key := .fac (.prod ⟨[(.vec 0 (some 0), 2)], range 9⟩)
    let y : Key := .atom (.vec 0 (some 1))
    let z : Key := .dprod ⟨[(.atom (.vec 0 (some 0)), 1), (.atom (.vec 0 (some 1)), 1)], range 6⟩
    Key.lt exW x y = true ∧ Key.lt exW y z = true ∧ Key.lt exW z x = true := by
  decide +kernel

/-- **C15 fails** across groups: two representations, each smaller than the other, for every environment in which `G` hashes
below `H`. -/
theorem C15_counterexample_both {g h : Gid} (hh : W.ghash g < W.ghash h) :
    Key.lt W (.atom (.dual 0 (some g))) (.atom (.vec 0 (some h))) = true ∧
    Key.lt W (.atom (.vec 0 (some h))) (.atom (.dual 0 (some g))) = true := by
  have hne : h ≠ g := by rintro rfl; exact lt_irrefl _ hh
  simp [Key.lt, Key.ltRep, Key.G?, Fac.G, Atom.G, hh, hne]

/-- **C15 fails** for user-defined representations of a group that is not orthogonal: if `U` does not hash below `U.T`,
neither is smaller than the other, so the order in which `U` and `U.T` are stored depends on the iteration order of a set. -/
theorem C15_counterexample_custom {k : ℕ} (hk : k ≠ 0) (g : Gid)
    (hh : W.hash (.atom (.dual k (some g))) ≤ W.hash (.atom (.vec k (some g)))) :
    Key.lt W (.atom (.vec k (some g))) (.atom (.dual k (some g))) = false ∧
    Key.lt W (.atom (.dual k (some g))) (.atom (.vec k (some g))) = false := by
  obtain ⟨j, rfl⟩ := Nat.exists_eq_succ_of_ne_zero hk
  simp [Key.lt, Key.ltRep, Key.G?, Fac.G, Atom.G, Key.size, Fac.size, Atom.size, hh]

/-- **C15 fails** after the global `Scalar` has been called on a group that hashes above `G` (calling any deferred sum with a
scalar on that group does it): `Scalar` and any other representation of `G` are then incomparable. -/
theorem C15_counterexample_scalar {g h : Gid} (hs : W.scalarG = some h) (hh : W.ghash g < W.ghash h) {f : Fac} (hf : f.G = some g)
    : Key.lt W .scalar (.fac f) = false ∧ Key.lt W (.fac f) .scalar = false := by
  have hn : ¬ W.ghash h < W.ghash g := by omega
  constructor
  · have : Key.lt W .scalar (.fac f) = Key.ltRep W .scalar (.fac f) := rfl
    rw [this]
    simp [Key.ltRep, Key.G?, hs, hf, hn, hh]
  · unfold Key.lt
    split
    · next h => cases h
    · split_ifs <;> simp [Key.ltRep]
    · simp [Key.ltRep]

/-- **C15 fails** in dimension one: if `V` does not hash above `Scalar` (whose hash is `0`), `Scalar` and `V` are
incomparable.  The theorems about one group therefore ask for dimension at least two. -/
theorem C15_counterexample_dim1 {g : Gid} (hs : W.scalarG = none ∨ W.scalarG = some g) (hd : W.d g = 1)
    (hh : W.hash (.atom (.vec 0 (some g))) ≤ W.hash .scalar) :
    Key.lt W .scalar (.atom (.vec 0 (some g))) = false ∧ Key.lt W (.atom (.vec 0 (some g))) .scalar = false := by
  have h1 : Key.lt W .scalar (.atom (.vec 0 (some g))) = Key.ltRep W .scalar (.atom (.vec 0 (some g))) := rfl
  refine ⟨?_, by simp [Key.lt, Key.ltRep]⟩
  rw [h1]
  rcases hs with hs | hs <;>
    simp [Key.ltRep, Key.G?, hs, Fac.G, Atom.G, Key.size, Fac.size, Atom.size, World.asize, hd, hh]

/-- Not vacuous. -/
example : ∃ W : World, W.scalarG = none ∧ W.d 0 = 1 ∧ W.hash (.atom (.vec 0 (some 0))) ≤ W.hash .scalar :=
  ⟨{ exW with d := fun _ => 1, hash := fun k => if k = .scalar then 0 else -1, scalarG := none }, rfl, rfl, by decide⟩

/-- The example environment after `Scalar` has been called on group `3`. -/
def exStale : World := { exW with scalarG := some 3 }

theorem exI_dual_stale (x : ℤ) : (exI x).Dual exStale where
  vec := (exI_dual x).vec
  dual := (exI_dual x).dual
  inv := (exI_dual x).inv
  orth := (exI_dual x).orth

/-- **C01 fails** in that state, for one group: in `(V + Scalar) + (Scalar + V)` coordinates are misplaced (the shear of the
first summand is not found in rows and columns `0,1`), when the set `{V, Scalar}` is iterated in insertion order. -/
theorem C01_counterexample_scalar :
    repEntry (exI 5) (do
      let a ← Rep.add exStale (.key (.atom (.vec 0 (some 1)))) (.key .scalar)
      let b ← Rep.add exStale (.key .scalar) (.key (.atom (.vec 0 (some 1))))
      Rep.add exStale a b) 0 1 = some 0 ∧
    ((exI 5).vec 0 (some 1)).sem.e 0 1 = 5 := by
  decide +kernel

/-- The example environment with groups of dimension 1 and negative hashes. -/
def exOne : World := { exW with d := fun _ => 1, hash := fun k => -(Encodable.encode k : ℤ) }

/-- A group of dimension 1 whose element acts by `x`. -/
def exOneI (x : ℤ) : Interp ℤ := { exI x with vec := fun _ _ => .lazy (DMat.of 1 1 fun _ _ => x) }

/-- **C01 fails** in dimension one: `(V(G)+Scalar)+(Scalar+V(G))`, for `G` such as `O(1)`, acts by `1` on its first coordinate, where
`V(G)` acts by `-1`. -/
theorem C01_counterexample_dim1 :
    repEntry (exOneI (-1)) (do
      let a ← Rep.add exOne (.key (.atom (.vec 0 (some 0)))) (.key .scalar)
      let b ← Rep.add exOne (.key .scalar) (.key (.atom (.vec 0 (some 0))))
      Rep.add exOne a b) 0 0 = some 1 ∧
    ((exOneI (-1)).vec 0 (some 0)).sem.e 0 0 = -1 := by
  decide +kernel

end Verif
