import Verif.Lemmas.Multi

/-! Products and duals over several groups, with one letter per group. -/
namespace Verif
open List

variable {W : World} {Γ : Gid → Prop} {L : Gid → Atom}

theorem sorted_union_one {a : Atom} {ns : List ℕ} (hne : ns ≠ []) :
    W.sorted (Atom.lt W) (unionKeys W.setOrder (ns.map fun n => ([(a, n)] : Counter Atom))) = [a] := by
  have hn := nodup_unionKeys W (cs := ns.map fun n => ([(a, n)] : Counter Atom))
    (by intro c hc; obtain ⟨n, -, rfl⟩ := mem_map.1 hc; simp [Counter.keys])
  have hp : unionKeys W.setOrder (ns.map fun n => ([(a, n)] : Counter Atom)) ~ [a] := by
    rw [perm_ext_iff_of_nodup hn (by simp)]
    intro x
    rw [mem_unionKeys, mem_singleton]
    constructor
    · rintro ⟨c, hc, hx⟩
      obtain ⟨n, -, rfl⟩ := mem_map.1 hc
      simpa [Counter.keys] using hx
    · rintro rfl
      obtain ⟨n, t, rfl⟩ := exists_cons_of_ne_nil hne
      exact ⟨[(x, n)], by simp, by simp [Counter.keys]⟩
  exact perm_singleton.1 ((W.sorted_perm _ _).trans hp)

theorem StrictTotalOn.const {α : Type*} {lt : α → α → Bool} {a : α} (h : lt a a = false) {l : List α} (hl : ∀ x ∈ l, x = a) : StrictTotalOn lt l where
  irrefl x hx := by rw [hl x hx]; exact h
  trans x hx y hy z hz h1 _ := by rw [hl x hx, hl y hy, h] at h1; simp at h1
  total x hx y hy hxy := absurd ((hl x hx).trans (hl y hy).symm) hxy

theorem Fac.counter_of_base {f : Fac} {a : Atom} {n : ℕ} (h : f.base W = Fac.power W a n) : f.counter = [(a, n)] := by
  rw [← Fac.counter_base (W := W), h, Fac.power_counter]

/-- Products of products of the letters. -/
theorem World.Letters.mul (hL : W.Letters Γ L) (a b : Key) (ha : a.WF W) (hb : b.WF W) (hSa : W.Multi Γ L (a.base W))
    (hSb : W.Multi Γ L (b.base W)) :
    ∃ r, Key.mul W a b = .ok r ∧ r.WF W ∧ W.Multi Γ L (r.base W) ∧ r.size W = a.size W * b.size W ∧
      (∀ (R : Type) [CommRing R] (I : Interp R), I.Sized W →
        (r.rho I).sem = DMat.kron (a.rho I).sem (b.rho I).sem) ∧
      (∀ f, r = .fac f → (a = .scalar ∧ b = .fac f) ∨ (a = .fac f ∧ b = .scalar) ∨ ∃ f1 f2, a = .fac f1 ∧ b = .fac f2 ∧ f1.G = f.G ∧ f2.G = f.G) ∧
      (r = .scalar → a = .scalar ∧ b = .scalar) := by
  have direct : a ≠ .scalar → b ≠ .scalar → (∀ f f', a = .fac f → b = .fac f' → f.G ≠ f'.G) →
      ∃ r, Key.mul W a b = .ok r ∧ r.WF W ∧ W.Multi Γ L (r.base W) ∧ r.size W = a.size W * b.size W ∧
      (∀ (R : Type) [CommRing R] (I : Interp R), I.Sized W →
        (r.rho I).sem = DMat.kron (a.rho I).sem (b.rho I).sem) ∧
      (∀ f, r = .fac f → (a = .scalar ∧ b = .fac f) ∨ (a = .fac f ∧ b = .scalar) ∨ ∃ f1 f2, a = .fac f1 ∧ b = .fac f2 ∧ f1.G = f.G ∧ f2.G = f.G) ∧
      (r = .scalar → a = .scalar ∧ b = .scalar) := by
    intro has hbs hff
    obtain ⟨d, d1, d2, d3, d4, d5⟩ := hL.mkDirect (ops := [a, b]) (extra := none) (by simp)
      (by intro k hk; simp at hk; rcases hk with rfl | rfl; exacts [⟨ha, hSa, has⟩, ⟨hb, hSb, hbs⟩])
      (by
        match a, b, has, hbs, hff, hSa, hSb with
        | .scalar, _, h, _, _, _, _ => exact absurd rfl h
        | .fac f, .scalar, _, h, _, _, _ => exact absurd rfl h
        | .fac f, .fac f', _, _, h, _, _ =>
          exact ⟨.fac f, by simp, f.base W, by simp [Key.dcnt, Counter.keys], .fac f', by simp, f'.base W, by simp [Key.dcnt, Counter.keys], by
            rw [Fac.G_base, Fac.G_base]; exact h f f' rfl rfl⟩
        | .dprod d, b, _, _, _, hSa, _ =>
          obtain ⟨x, hx, y, hy, h⟩ := hL.two_groups hSa
          exact ⟨.dprod d, by simp, x, hx, .dprod d, by simp, y, hy, h⟩
        | .fac f, .dprod d, _, _, _, _, hSb =>
          obtain ⟨x, hx, y, hy, h⟩ := hL.two_groups hSb
          exact ⟨.dprod d, by simp, x, hx, .dprod d, by simp, y, hy, h⟩) (Perm.refl _)
    simp only [map_cons, map_nil, prod_cons, prod_nil, mul_one] at d4
    refine ⟨.dprod d, ?_, d2, d3, d4, ?_, by simp, by simp⟩
    · have : Key.mul W a b = (do let d ← Verif.mkDirect W [a, b] none; .ok (.dprod d) : Py Key) := by
        match a, b, has, hbs, hff with
        | .scalar, _, h, _, _ => exact absurd rfl h
        | .fac f, .scalar, _, h, _ => exact absurd rfl h
        | .dprod d, .scalar, _, h, _ => exact absurd rfl h
        | .fac f, .fac f', _, _, h => simp only [Key.mul]; rw [if_neg (h f f' rfl rfl)]
        | .fac f, .dprod d, _, _, _ => rfl
        | .dprod d, .fac f, _, _, _ => rfl
        | .dprod d, .dprod d', _, _, _ => rfl
      rw [this, d1]; rfl
    · intro R _ I hI
      have hsq := kronL_isSq [a, b] (fun k => (k.rho I).sem) (Key.size W)
        (by intro k hk; simp at hk; rcases hk with rfl | rfl; exacts [Key.rho_sq hI ha, Key.rho_sq hI hb])
      simp only [map_cons, map_nil, DMat.kronL, DMat.kron_one, prod_cons, prod_nil, mul_one] at hsq
      apply d5 R I hI
      · rw [d4]; exact hsq
      · simp only [extraOf, Option.getD_none, map_cons, map_nil, DMat.kronL, DMat.kron_one]
        rw [d4]
        conv_rhs => rw [← DMat.pick_range (DMat.kron (a.rho I).sem (b.rho I).sem), hsq.1, hsq.2]
  match a, b, ha, hb, hSa, hSb, direct with
  | .scalar, b, ha, hb, hSa, hSb, _ =>
    refine ⟨b, rfl, hb, hSb, by simp [Key.size], ?_, fun f hf => Or.inl ⟨rfl, hf⟩, fun h => ⟨rfl, h⟩⟩
    intro R _ I _
    simp [Key.rho, LinOp.sem, DMat.one_kron]
  | .fac f, .scalar, ha, hb, hSa, hSb, _ =>
    refine ⟨.fac f, rfl, ha, hSa, by simp [Key.size], ?_, fun f hf => Or.inr (Or.inl ⟨hf, rfl⟩), by simp⟩
    intro R _ I _
    simp [Key.rho, LinOp.sem, DMat.kron_one]
  | .dprod d, .scalar, ha, hb, hSa, hSb, _ =>
    refine ⟨.dprod d, rfl, ha, hSa, by simp [Key.size], ?_, by simp, by simp⟩
    intro R _ I _
    simp [Key.rho, LinOp.sem, DMat.kron_one]
  | .dprod d, .fac f, _, _, _, _, direct => exact direct (by simp) (by simp) (by simp)
  | .dprod d, .dprod d', _, _, _, _, direct => exact direct (by simp) (by simp) (by simp)
  | .fac f, .dprod d', _, _, _, _, direct => exact direct (by simp) (by simp) (by simp)
  | .fac f, .fac f', ha, hb, hSa, hSb, direct =>
    by_cases hG : f.G = f'.G
    swap
    · exact direct (by simp) (by simp) (by rintro _ _ ⟨rfl⟩ ⟨rfl⟩; exact hG)
    obtain ⟨g, m, hg, hm, hf⟩ := hSa
    obtain ⟨g', n, hg', hn, hf'⟩ := hSb
    have e1 : f.G = some g := by rw [← Fac.G_base (W := W), hf, Fac.power_G, hL.G g hg]
    have e2 : f'.G = some g' := by rw [← Fac.G_base (W := W), hf', Fac.power_G, hL.G g' hg']
    have : g' = g := by rw [e1, e2] at hG; exact (Option.some.inj hG).symm
    subst this
    have c1 := Fac.counter_of_base hf
    have c2 := Fac.counter_of_base hf'
    obtain ⟨p, p1, p2, p3, p4, -, p6, p7⟩ := mkProd_spec_none (W := W) (ops := [f, f']) (g := g') (by simp)
      (by intro x hx; simp at hx; rcases hx with rfl | rfl <;> assumption)
      (by intro x hx; simp at hx; rcases hx with rfl | rfl <;> assumption)
      (StrictTotalOn.const (Atom.lt_self (L g')) (by simp [c1, c2, Counter.keys]))
    simp only [map_cons, map_nil, prod_cons, prod_nil, mul_one, c1, c2] at p4 p6
    have hc : p.c = [(L g', m + n)] := by
      rw [p6, prodCompute, prodCanon_counter]
      have := sorted_union_one (W := W) (a := L g') (ns := [m, n]) (by simp)
      simp only [map_cons, map_nil] at this
      rw [this]
      simp [Counter.get_cons, hm]
    refine ⟨.fac (.prod p), ?_, p2, ⟨g', m + n, hg, by omega, ?_⟩, p4, ?_, fun f hf => Or.inr (Or.inr ⟨_, _, rfl, rfl, ?_⟩), by simp⟩
    · simp only [Key.mul]; rw [if_pos hG, p1]; rfl
    · rw [Fac.power_ne (by omega)]
      simp only [Fac.base, PRep.size, hc, Counter.prodSize, map_cons, map_nil, prod_cons, prod_nil, mul_one]
    · intro R _ I hI
      show (p.rho I).sem = _
      rw [p7 R I hI]
      simp [DMat.kronL, DMat.kron_one, Key.rho]
    · cases hf; rw [e1, e2]; exact ⟨p3.symm, p3.symm⟩

/-! ### Duals -/

theorem Atom.T_mat {a : Atom} {R : Type} [CommRing R] {I : Interp R} (hI : I.Dual W) (ha : a.G.isSome) :
    ((a.T W).rho I).sem.transpose.mul (a.rho I).sem = DMat.one (a.size W) := by
  match a, ha with
  | .vec k (some g), _ =>
    by_cases ho : W.orth g = true
    · simp only [Atom.T, ho, if_true]; exact hI.orth k g ho
    · simp only [Atom.T, ho]; exact hI.inv k g
  | .dual k (some g), _ =>
    have := congrArg DMat.transpose (hI.inv k g)
    have s1 := hI.dual k g
    have s2 := hI.vec k g
    rw [DMat.transpose_mul _ _ (by simp [s1.1, s2.1]), DMat.transpose_transpose, DMat.transpose_one] at this
    exact this

theorem Atom.T_G (a : Atom) : (a.T W).G = a.G := by
  match a with
  | .vec k (some g) => by_cases ho : W.orth g = true <;> simp [Atom.T, ho, Atom.G]
  | .vec k none => rfl
  | .dual k g => rfl

theorem Atom.T_size (a : Atom) : (a.T W).size W = a.size W := by
  match a with
  | .vec k (some g) => by_cases ho : W.orth g = true <;> simp [Atom.T, ho, Atom.size]
  | .vec k none => rfl
  | .dual k (some g) => rfl
  | .dual k none => rfl

/-- the matrices of two lists of representations that are pairwise transposed inverses -/
theorem kronL_inv {ι : Type} {R : Type} [CommRing R] (l : List ι) (A B : ι → DMat R) (s : ι → ℕ) (hA : ∀ x ∈ l, (A x).IsSq (s x))
    (hB : ∀ x ∈ l, (B x).IsSq (s x)) (h : ∀ x ∈ l, (B x).transpose.mul (A x) = DMat.one (s x)) :
    (DMat.kronL (l.map B)).transpose.mul (DMat.kronL (l.map A)) = DMat.one (l.map s).prod := by
  rw [DMat.transpose_kronL, map_map, DMat.kronL_mul l (DMat.transpose ∘ B) A]
  · rw [show (l.map fun x => DMat.mul ((DMat.transpose ∘ B) x) (A x)) = l.map fun x => DMat.one (s x) from map_congr_left h, DMat.kronL_one]
  · intro x hx
    simp only [Function.comp, DMat.transpose_cols]
    rw [(hA x hx).1, (hB x hx).1]

theorem Fac.power_inv {a : Atom} (ha : a.G.isSome) {n : ℕ} (hn : n ≠ 0) {R : Type} [CommRing R] {I : Interp R} (hI : I.Dual W) :
    ((Fac.power W (a.T W) n).rho I).sem.transpose.mul ((Fac.power W a n).rho I).sem = DMat.one (a.size W ^ n) := by
  have ha' : (a.T W).G.isSome := by rw [Atom.T_G]; exact ha
  rw [Fac.power_mat ha' hn hI.toSized, Fac.power_mat ha hn hI.toSized]
  have := kronL_inv (replicate n ()) (fun _ => (a.rho I).sem) (fun _ => ((a.T W).rho I).sem) (fun _ => a.size W)
    (fun _ _ => Atom.rho_sq hI.toSized ha) (fun _ _ => by have := Atom.rho_sq hI.toSized ha'; rwa [Atom.T_size] at this)
    (fun _ _ => Atom.T_mat hI ha)
  simpa using this

/-- `.T` of a power of a letter, in any order. -/
theorem Fac.T_power {f : Fac} (hf : f.WF W) {a : Atom} (ha : a.G.isSome) {n : ℕ} (hn : n ≠ 0) (h : f.base W = Fac.power W a n) :
    ∃ f', Fac.T W f = .ok f' ∧ f'.WF W ∧ f'.base W = Fac.power W (a.T W) n ∧ f'.permOf W = f.permOf W := by
  have ha' : (a.T W).G.isSome := by rw [Atom.T_G]; exact ha
  cases f with
  | atom b =>
    have h1 := Fac.counter_of_base h
    simp only [Fac.counter, cons.injEq, and_true, Prod.mk.injEq] at h1
    obtain ⟨rfl, rfl⟩ := h1
    exact ⟨.atom (b.T W), rfl, ha', rfl, by simp [Fac.permOf, Atom.T_size]⟩
  | prod p =>
    have hp : p.WF W := hf
    have h1 := Fac.counter_of_base h
    simp only [Fac.counter] at h1
    have hn1 : n ≠ 1 := by
      rintro rfl
      rw [Fac.power_one] at h; simp [Fac.base] at h
    have hsz : p.size W = a.size W ^ n := by simp [PRep.size, h1, Counter.prodSize]
    have hm := mkProd_power (W := W) ha' (ns := replicate n 1) (by simpa using hn) (by intro x hx; rw [eq_of_mem_replicate hx]; exact one_ne_zero)
      (extra := some p.perm)
    have e : p.c.expand.map (fun a => Fac.atom (a.T W)) = (replicate n 1).map (Fac.power W (a.T W)) := by
      rw [h1]; simp [Counter.expand, Fac.power_one]
    have hsum : (replicate n 1).sum = n := by simp
    rw [← e, hsum, Atom.T_size, withExtra] at hm
    have hg : gather p.perm (range (a.size W ^ n)) = p.perm := by
      have := gather_range (p := p.perm)
      rwa [length_of_perm_range hp.perm, hsz] at this
    simp only [hg] at hm
    refine ⟨.prod ⟨[(a.T W, n)], p.perm⟩, ?_, ⟨SortedCounter.one (Atom.lt_self _) hn, ?_, ?_⟩, ?_, rfl⟩
    · simp only [Fac.T]; rw [hm]; rfl
    · obtain ⟨g, hg⟩ := Option.isSome_iff_exists.1 ha'
      exact ⟨g, by simpa [Counter.keys] using hg⟩
    · have := hp.perm
      simpa [PRep.size, Counter.prodSize, Atom.T_size, h1] using this
    · rw [Fac.power_ne hn1]; simp [Fac.base, PRep.size, Counter.prodSize]

/-- A factor and the factor in canonical order. -/
theorem Fac.pick_base {f : Fac} (hf : f.WF W) {R : Type} [CommRing R] {I : Interp R} (hI : I.Sized W) :
    (f.rho I).sem.pick (f.permOf W) (f.permOf W) = ((f.base W).rho I).sem := Fac.rho_pick hI hf

/-- Duals of products of the letters. -/
theorem World.Letters.dual (hL : W.Letters Γ L) (hL' : W.Letters Γ fun g => (L g).T W) (a : Key) (ha : a.WF W) (hS : W.Multi Γ L (a.base W)) :
    ∃ r, Key.T W a = .ok r ∧ r.WF W ∧ W.Multi Γ (fun g => (L g).T W) (r.base W) ∧ r.size W = a.size W ∧
      (∀ (R : Type) [CommRing R] (I : Interp R), I.Dual W →
        (r.rho I).sem.transpose.mul (a.rho I).sem = DMat.one (a.size W)) ∧
      (∀ f, r = .fac f → ∃ f', a = .fac f' ∧ f.G = f'.G) := by
  have hs : ∀ g, Γ g → (L g).G.isSome := fun g hg => by rw [hL.G g hg]; rfl
  have hs' : ∀ g, Γ g → ((L g).T W).G.isSome := fun g hg => by rw [hL'.G g hg]; rfl
  match a, ha, hS with
  | .scalar, ha, hS =>
    refine ⟨.scalar, rfl, ha, hS, rfl, ?_, by simp⟩
    intro R _ I _
    simp only [Key.rho, LinOp.sem, DMat.transpose_one]
    exact DMat.one_mul' _ rfl
  | .fac f, ha, hS =>
    obtain ⟨g, n, hg, hn, hf⟩ := hS
    obtain ⟨f', t1, t2, t3, t4⟩ := Fac.T_power ha (hs g hg) hn hf
    have z1 : f.size W = (L g).size W ^ n := by rw [← Fac.size_base, hf, Fac.power_size]
    have z2 : f'.size W = (L g).size W ^ n := by rw [← Fac.size_base, t3, Fac.power_size, Atom.T_size]
    refine ⟨.fac f', ?_, t2, ⟨g, n, hg, hn, t3⟩, ?_, ?_, ?_⟩
    · simp only [Key.T]; rw [t1]; rfl
    · show f'.size W = f.size W
      rw [z1, z2]
    · intro R _ I hI
      show (f'.rho I).sem.transpose.mul (f.rho I).sem = DMat.one (f.size W)
      have p1 := Fac.pick_base (I := I) ha hI.toSized
      have p2 := Fac.pick_base (I := I) t2 hI.toSized
      rw [t4, t3] at p2
      rw [hf] at p1
      have q1 := Fac.rho_sq hI.toSized ha
      have q2 := Fac.rho_sq hI.toSized t2
      rw [z2, ← z1] at q2
      refine inv_of_pick (Fac.permOf_perm ha) q1 q2 p1 p2 ?_
      rw [Fac.power_inv (hs g hg) hn hI, z1]
    · rintro _ ⟨rfl⟩
      refine ⟨f, rfl, ?_⟩
      rw [← Fac.G_base (W := W), t3, Fac.power_G, Atom.T_G, ← Fac.G_base (W := W) f, hf, Fac.power_G]
  | .dprod d, ha, hS =>
    have hd : d.WF W := ha
    obtain ⟨l, l1, l2, l3, l4, -⟩ := hS
    simp only at l4
    have hex : d.c.expand = l.map fun x => Fac.power W (L x.1) x.2 := by
      rw [l4, Counter.expand, flatMap_map]
      simp only [replicate_one]
      rw [← flatMap_pure_eq_map]; rfl
    have hT : d.c.expand.mapM (Fac.T W) = .ok (l.map fun x => Fac.power W ((L x.1).T W) x.2) := by
      rw [hex, mapM_map]
      refine mapM_ok fun x hx => ?_
      obtain ⟨f', t1, t2, t3, t4⟩ := Fac.T_power (W := W) (Fac.power_wf (hs _ (l2 x hx).1) (l2 x hx).2) (hs _ (l2 x hx).1) (l2 x hx).2 (Fac.power_base _ _)
      have hb : f' = Fac.power W ((L x.1).T W) x.2 := by
        rw [← t3]
        cases f' with
        | atom b => rfl
        | prod p =>
          have h6 : p.perm = range ((L x.1).size W ^ x.2) := by rw [← Fac.power_permOf (W := W), ← t4]; rfl
          have h7 : p.size W = (L x.1).size W ^ x.2 := by
            have := congrArg (Fac.size W) t3
            rw [Fac.size_base, Fac.power_size, Atom.T_size] at this; exact this
          obtain ⟨c, perm⟩ := p
          simp only at h6
          subst h6
          simp only [Fac.base, h7]
      show Fac.T W (Fac.power W (L x.1) x.2) = _
      rw [t1, hb]
    have hsz : (((l.map fun x => Fac.power W ((L x.1).T W) x.2).map Key.fac).map (Key.size W)).prod = d.size W := by
      have e : ((l.map fun x => Fac.power W ((L x.1).T W) x.2).map Key.fac).map (Key.size W) = l.map fun x => (L x.1).size W ^ x.2 := by
        rw [map_map, map_map]
        exact map_congr_left fun x _ => by simp [Key.size, Fac.power_size, Atom.T_size]
      rw [e, DRep.size, l4, Counter.prodSize, map_map]
      congr 1
      exact map_congr_left fun x _ => by simp [Fac.power_size]
    obtain ⟨e, d1, d2, d3, d4, d5⟩ := hL'.mkDirect (ops := (l.map fun x => Fac.power W ((L x.1).T W) x.2).map Key.fac) (extra := some d.perm)
      (by rintro e; simp only [map_eq_nil_iff] at e; rw [e] at l1; simp at l1)
      (by
        intro k hk
        obtain ⟨f, hf, rfl⟩ := mem_map.1 hk
        obtain ⟨x, hx, rfl⟩ := mem_map.1 hf
        exact ⟨Fac.power_wf (hs' _ (l2 x hx).1) (l2 x hx).2, ⟨x.1, x.2, (l2 x hx).1, (l2 x hx).2, Fac.power_base _ _⟩, by simp⟩)
      (by
        match l, l1, l2, l3 with
        | x :: y :: l, _, l2, l3 =>
          refine ⟨.fac (Fac.power W ((L x.1).T W) x.2), by simp, (Fac.power W ((L x.1).T W) x.2).base W, by simp [Key.dcnt, Counter.keys],
            .fac (Fac.power W ((L y.1).T W) y.2), by simp, (Fac.power W ((L y.1).T W) y.2).base W, by simp [Key.dcnt, Counter.keys], ?_⟩
          rw [Fac.G_base, Fac.G_base, Fac.power_G, Fac.power_G, hL'.G _ (l2 x (by simp)).1, hL'.G _ (l2 y (by simp)).1]
          intro e
          have : W.ghash x.1 < W.ghash y.1 := (pairwise_cons.1 l3).1 y (by simp)
          rw [Option.some.inj e] at this
          exact absurd this (lt_irrefl _))
      (by rw [hsz]; exact hd.perm)
    rw [hsz] at d4
    refine ⟨.dprod e, ?_, d2, d3, d4, ?_, by simp⟩
    · simp only [Key.T]
      rw [hT]
      show (do let e ← Verif.mkDirect W ((l.map fun x => Fac.power W ((L x.1).T W) x.2).map Key.fac) (some d.perm); .ok (.dprod e) : Py Key) = _
      rw [d1]; rfl
    · intro R _ I hI
      have hIs := hI.toSized
      have hA : ∀ x ∈ l, (((Fac.power W (L x.1) x.2).rho I).sem).IsSq ((L x.1).size W ^ x.2) := fun x hx => by
        have := Fac.rho_sq hIs (Fac.power_wf (W := W) (hs _ (l2 x hx).1) (l2 x hx).2)
        rwa [Fac.power_size] at this
      have hB : ∀ x ∈ l, (((Fac.power W ((L x.1).T W) x.2).rho I).sem).IsSq ((L x.1).size W ^ x.2) := fun x hx => by
        have := Fac.rho_sq hIs (Fac.power_wf (W := W) (hs' _ (l2 x hx).1) (l2 x hx).2)
        rwa [Fac.power_size, Atom.T_size] at this
      have hps : (l.map fun x => (L x.1).size W ^ x.2).prod = d.size W := by
        rw [DRep.size, l4, Counter.prodSize, map_map]
        congr 1
        exact map_congr_left fun x _ => by simp [Fac.power_size]
      obtain ⟨B, hBe⟩ : ∃ B, B = DMat.kronL (l.map fun x => ((Fac.power W ((L x.1).T W) x.2).rho I).sem) := ⟨_, rfl⟩
      have hBs : B.IsSq (d.size W) := by
        have := kronL_isSq l (fun x => ((Fac.power W ((L x.1).T W) x.2).rho I).sem) (fun x => (L x.1).size W ^ x.2) hB
        rwa [hps, ← hBe] at this
      obtain ⟨b1, b2⟩ := pick_argsort_pick hd.perm hBs
      have hq : (e.rho I).sem = B.pick (argsort d.perm) (argsort d.perm) := by
        apply d5 R I hIs
        · rw [d4]; exact b1
        · simp only [extraOf, Option.getD_some]
          rw [b2, hBe, map_map, map_map]; rfl
      show (e.rho I).sem.transpose.mul (d.rho I).sem = DMat.one (d.size W)
      have hA1 : (d.rho I).sem.pick d.perm d.perm = DMat.kronL (l.map fun x => ((Fac.power W (L x.1) x.2).rho I).sem) := by
        have := (dArg_ok (W := W) hIs (k := .dprod d) hd).pick
        simp only [dArg, Key.permOf, Key.dcnt, Key.rho] at this
        rw [this, hex, map_map]; rfl
      refine inv_of_pick (C' := B) hd.perm (DRep.rho_sq hIs hd) (by rw [hq]; exact b1) hA1 (by rw [hq]; exact b2) ?_
      rw [hBe, kronL_inv l _ _ (fun x => (L x.1).size W ^ x.2) hA hB fun x hx => Fac.power_inv (hs _ (l2 x hx).1) (l2 x hx).2 hI, hps]

end Verif
