import Verif.Lemmas.ClassSingle
import Verif.Lemmas.DenseRing

/-! `.T`: the matrix of the dual is the transposed inverse. -/
namespace Verif
open List

variable {W : World} {S : Key → Prop} {g : Gid} {N : ℕ}

/-- A class of keys closed under `.T`. -/
structure DualClass (W : World) (S : Key → Prop) : Prop where
  dual : ∀ a : Key, a.WF W → S (a.base W) → ∃ r, Key.T W a = .ok r ∧ r.WF W ∧ S (r.base W) ∧ r.size W = a.size W ∧
    ∀ (R : Type) [CommRing R] (I : Interp R), I.Dual W →
      (r.rho I).sem.transpose.mul (a.rho I).sem = DMat.one (a.size W)

theorem inv_of_pick {R : Type} [CommRing R] {n : ℕ} {p : List ℕ} {C C' D D' : DMat R} (hp : p ~ range n) (hD : D.IsSq n)
    (hD' : D'.IsSq n) (h : D.pick p p = C) (h' : D'.pick p p = C') (hc : C'.transpose.mul C = DMat.one n) :
    D'.transpose.mul D = DMat.one n := by
  have hl := length_of_perm_range hp
  have hq : argsort p ~ range n := hl ▸ argsort_perm p
  have hlt : ∀ x ∈ argsort p, x < n := fun x hx => lt_of_perm_range hq hx
  have hC : C.IsSq n := by rw [← h]; exact ⟨hl, hl⟩
  have hC' : C'.IsSq n := by rw [← h']; exact ⟨hl, hl⟩
  rw [DMat.pick_inv hp hD h, DMat.pick_inv hp hD' h', DMat.pick_transpose,
    DMat.pick_mul_pick (n := n) _ _ hq (by simpa using hC'.1) (by simpa [hC'.2] using hlt) (by simpa [hC.2] using hlt), hc, DMat.pick_one hq]

theorem pick_argsort_pick {R : Type} [CommRing R] {n : ℕ} {p : List ℕ} {C : DMat R} (hp : p ~ range n) (hC : C.IsSq n) :
    (C.pick (argsort p) (argsort p)).IsSq n ∧ (C.pick (argsort p) (argsort p)).pick p p = C := by
  have hl := length_of_perm_range hp
  have ha : argsort p ~ range n := hl ▸ argsort_perm p
  have hla := length_of_perm_range ha
  refine ⟨⟨hla, hla⟩, ?_⟩
  have hb : ∀ x ∈ p, x < (argsort p).length := fun x hx => by rw [hla]; exact lt_of_perm_range hp hx
  rw [DMat.pick_pick _ hb hb, argsort_gather hp]
  conv_rhs => rw [← DMat.pick_range C, hC.1, hC.2]

theorem World.Letter.T {a : Atom} (h : W.Letter g a) : W.Letter g (a.T W) ∧ (a.T W).size W = a.size W ∧
    ∀ (R : Type) [CommRing R] (I : Interp R), I.Dual W →
      ((a.T W).rho I).sem.transpose.mul (a.rho I).sem = DMat.one (a.size W) := by
  rcases h with ⟨⟨ho, k, rfl⟩ | ⟨ho, rfl | rfl⟩, hs⟩
  · have e : Atom.T W (.vec k (some g)) = .vec k (some g) := by simp [Atom.T, ho]
    rw [e]
    refine ⟨⟨Or.inl ⟨ho, k, rfl⟩, hs⟩, rfl, ?_⟩
    intro R _ I hI; exact hI.orth k g ho
  · have e : Atom.T W (.vec 0 (some g)) = .dual 0 (some g) := by simp [Atom.T, ho]
    rw [e]
    refine ⟨⟨Or.inr ⟨ho, Or.inr rfl⟩, hs⟩, rfl, ?_⟩
    intro R _ I hI; exact hI.inv 0 g
  · have e : Atom.T W (.dual 0 (some g)) = .vec 0 (some g) := by simp [Atom.T]
    rw [e]
    refine ⟨⟨Or.inr ⟨ho, Or.inl rfl⟩, hs⟩, rfl, ?_⟩
    intro R _ I hI
    have := congrArg DMat.transpose (hI.inv 0 g)
    have s1 := hI.dual 0 g
    have s2 := hI.vec 0 g
    rw [DMat.transpose_mul _ _ (by simp [s1.1, s2.1]), DMat.transpose_transpose, DMat.transpose_one] at this
    exact this

theorem World.Single.dual (hW : W.SingleOK g N) : DualClass W (W.Single g N) where
  dual a ha hS := by
    match a, ha, hS with
    | .scalar, ha, hS =>
      refine ⟨.scalar, rfl, ha, hS, rfl, ?_⟩
      intro R _ I _
      simp only [Key.rho, LinOp.sem, DMat.transpose_one]
      exact DMat.one_mul' _ rfl
    | .dprod d, _, hS => exact hS.2.elim
    | .fac (.atom a), ha, hS =>
      obtain ⟨h1, h2, h3⟩ := World.Letter.T hS.2
      refine ⟨.fac (.atom (a.T W)), rfl, ?_, ⟨?_, h1⟩, h2, h3⟩
      · show (a.T W).G.isSome
        rw [h1.G]; rfl
      · show (a.T W).size W ≤ N
        rw [h2]; exact hS.1
    | .fac (.prod p), ha, hS =>
      have ha' : p.WF W := ha
      obtain ⟨hN, -, -, hl, hs2, hsd, hlen⟩ := hS
      have hle : ∀ a ∈ p.c.keys, a.size W ≤ N := fun a h =>
        le_trans (Atom.size_le_prod (f := .prod p) ha (fun a h => (hl a h).2) a h) hN
      have hlT : ∀ a ∈ p.c.expand, W.Letter g (a.T W) ∧ (a.T W).size W = a.size W := fun a h =>
        ⟨(World.Letter.T (hl a (Counter.mem_expand h))).1, (World.Letter.T (hl a (Counter.mem_expand h))).2.1⟩
      have hne : p.c.expand ≠ [] := by
        obtain ⟨kc, t, hc⟩ := exists_cons_of_ne_nil ha'.cnt.ne
        have := ha'.cnt.pos kc (by simp [hc])
        rw [hc]; simp [Counter.expand, this]
      have hsz : ((p.c.expand.map fun a => Fac.atom (a.T W)).map (Fac.size W)).prod = p.size W := by
        rw [map_map]
        have : (p.c.expand.map (Fac.size W ∘ fun a => Fac.atom (a.T W))) = p.c.expand.map (Atom.size W) :=
          map_congr_left fun a h => (hlT a h).2
        rw [this, prod_map_expand]; rfl
      obtain ⟨q, q1, q2, q3, q4, q5, q6, q7⟩ := mkProd_spec (W := W) (ops := p.c.expand.map fun a => Fac.atom (a.T W)) (g := g)
        (extra := some p.perm) (by simpa using hne)
        (by
          intro f hf; obtain ⟨a, h, rfl⟩ := mem_map.1 hf
          show (a.T W).G.isSome
          rw [(hlT a h).1.G]; rfl)
        (by intro f hf; obtain ⟨a, h, rfl⟩ := mem_map.1 hf; exact (hlT a h).1.G)
        (by
          have hs := World.Single.st hW (((p.c.expand.map fun a => Fac.atom (a.T W)).flatMap fun f => f.counter.keys).map Key.atom) (by
            intro k hk
            obtain ⟨x, hx, rfl⟩ := mem_map.1 hk
            obtain ⟨f, hf, hx⟩ := mem_flatMap.1 hx
            obtain ⟨a, h, rfl⟩ := mem_map.1 hf
            simp only [Fac.counter, Counter.keys, map_cons, map_nil, mem_singleton] at hx
            subst hx
            refine ⟨?_, (hlT a h).1⟩
            show (a.T W).size W ≤ N
            rw [(hlT a h).2]; exact hle a (Counter.mem_expand h))
          constructor
          · intro x hx; exact hs.irrefl _ (mem_map_of_mem hx)
          · intro x hx y hy z hz
            exact hs.trans _ (mem_map_of_mem hx) _ (mem_map_of_mem hy) _ (mem_map_of_mem hz)
          · intro x hx y hy hxy
            exact hs.total _ (mem_map_of_mem hx) _ (mem_map_of_mem hy) (by simpa [Key.atom] using hxy))
        (by simp only [extraOf, Option.getD_some]; rw [hsz]; exact ha'.perm)
      rw [hsz] at q4
      refine ⟨.fac (.prod q), ?_, q2, ?_, q4, ?_⟩
      · simp only [Key.T, Fac.T]; rw [q1]; rfl
      · refine ⟨?_, q2.base, rfl, ?_, ?_, ?_, ?_⟩
        · show q.size W ≤ N
          rw [q4]; exact hN
        · intro x hx
          obtain ⟨f, hf, hxf⟩ := (q5 x).1 hx
          obtain ⟨a, h, rfl⟩ := mem_map.1 hf
          simp only [Fac.counter, Counter.keys, map_cons, map_nil, mem_singleton] at hxf
          subst hxf; exact (hlT a h).1
        · show 2 ≤ q.size W
          rw [q4]; exact hs2
        · intro ho
          show W.d g < q.size W
          rw [q4]; exact hsd ho
        · have he := (mkProd_expand (ops := p.c.expand.map fun a => Fac.atom (a.T W)) (by
            intro f hf; obtain ⟨a, h, rfl⟩ := mem_map.1 hf
            show (a.T W).G.isSome
            rw [(hlT a h).1.G]; rfl) q6).length_eq
          show 2 ≤ q.c.expand.length
          rw [he]
          have hlen' : 2 ≤ p.c.expand.length := hlen
          simpa [length_flatMap, Fac.letters, Function.comp_def] using hlen'
      · intro R _ I hI
        have hIs := hI.toSized
        have hksq : (DMat.kronL (p.c.expand.map fun a => ((a.T W).rho I).sem)).IsSq (p.size W) := by
          have := kronL_isSq (R := R) p.c.expand (fun a => ((a.T W).rho I).sem) (Atom.size W) fun a h => by
            have := Atom.rho_sq hIs (a := a.T W) (by rw [(hlT a h).1.G]; rfl)
            rwa [(hlT a h).2] at this
          rwa [prod_map_expand] at this
        obtain ⟨d1, d2⟩ := pick_argsort_pick ha'.perm hksq
        have hq : (q.rho I).sem = (DMat.kronL (p.c.expand.map fun a => ((a.T W).rho I).sem)).pick (argsort p.perm) (argsort p.perm) := by
          apply q7 R I hIs
          · rw [q4]; exact d1
          · simp only [extraOf, Option.getD_some]
            rw [d2, map_map]; rfl
        show (q.rho I).sem.transpose.mul (p.rho I).sem = DMat.one (p.size W)
        refine inv_of_pick (C' := DMat.kronL (p.c.expand.map fun a => ((a.T W).rho I).sem)) ha'.perm (PRep.rho_sq hIs ha')
          (by rw [hq]; exact d1) (PRep.rho_pick hIs ha') (by rw [hq]; exact d2) ?_
        rw [DMat.transpose_kronL, map_map, DMat.kronL_mul p.c.expand (DMat.transpose ∘ fun a => ((a.T W).rho I).sem)]
        · have : (p.c.expand.map fun a => DMat.mul ((DMat.transpose ∘ fun a => ((a.T W).rho I).sem) a) (a.rho I).sem) =
              p.c.expand.map fun a => DMat.one (a.size W) :=
            map_congr_left fun a h => (World.Letter.T (hl a (Counter.mem_expand h))).2.2 R I hI
          rw [this, DMat.kronL_one, prod_map_expand]; rfl
        · intro a h
          have e1 := Atom.rho_sq hIs (a := a.T W) (by rw [(hlT a h).1.G]; rfl)
          have e2 := Atom.rho_sq hIs (a := a) (by rw [(hl a (Counter.mem_expand h)).G]; rfl)
          simp only [Function.comp, DMat.transpose_cols]
          rw [e1.1, e2.1, (hlT a h).2]

/-! ### Sums -/

/-- `.T` of a representation whose summands lie in a closed class. -/
theorem Rep.T_spec (hS : KeyClass W S N) (hT : DualClass W S) {r : Rep} (h : r.WF W) (hk : ∀ k ∈ r.keys W, S k) :
    ∃ t, Rep.T W r = .ok t ∧ t.WF W ∧ (∀ k ∈ t.keys W, S k) ∧ t.size W = r.size W ∧
      ∀ (R : Type) [CommRing R] (I : Interp R), I.Dual W →
        (t.mat I).transpose.mul (r.mat I) = DMat.one (r.size W) := by
  match r, h, hk with
  | .key k, h, hk =>
    obtain ⟨l, l1, l2, l3, l4, l5⟩ := hT.dual k h (hk _ (by simp [Rep.keys]))
    refine ⟨.key l, ?_, l2, ?_, l4, l5⟩
    · simp only [Rep.T]; rw [l1]; rfl
    · intro x hx; simp only [Rep.keys, mem_singleton] at hx; rw [hx]; exact l3
  | .sum s, h, hk =>
    have hw : s.WF W := h
    have hk' : ∀ k ∈ s.c.expand, k.WF W ∧ S (k.base W) := by
      intro k hk1
      have h1 := Counter.mem_expand hk1
      have h2 := hw.key k h1
      exact ⟨h2.1, by rw [h2.2]; exact hk k h1⟩
    obtain ⟨gl, g1, g2, g3⟩ := mapM_exists (f := Key.T W) (l := s.c.expand)
      (P := fun a r => r.WF W ∧ S (r.base W) ∧ r.size W = a.size W ∧
        ∀ (R : Type) [CommRing R] (I : Interp R), I.Dual W → (r.rho I).sem.transpose.mul (a.rho I).sem = DMat.one (a.size W))
      (fun k hk1 => hT.dual k (hk' k hk1).1 (hk' k hk1).2)
    have hne : s.c.expand ≠ [] := by
      obtain ⟨kc, t, hc⟩ := exists_cons_of_ne_nil hw.cnt.ne
      have := hw.cnt.pos kc (by simp [hc])
      rw [hc]; simp [Counter.expand, this]
    have hgne : gl ≠ [] := by rintro rfl; exact hne g2.symm
    have hsz : ((gl.map fun x => Rep.key x.2).map (Rep.size W)).sum = s.size W := by
      rw [map_map]
      have : gl.map (Rep.size W ∘ fun x => Rep.key x.2) = gl.map fun x => x.1.size W :=
        map_congr_left fun x hx => (g3 x hx).2.2.1
      rw [this, show (gl.map fun x => x.1.size W) = (gl.map (·.1)).map (Key.size W) by rw [map_map]; rfl, g2, sum_map_expand]
      rfl
    obtain ⟨t, t1, t2, t3, t4, -, t6⟩ := mkSum_spec (W := W) (ops := gl.map fun x => Rep.key x.2) (extra := some s.perm)
      (by simpa using hgne)
      (by intro r hr; obtain ⟨x, hx, rfl⟩ := mem_map.1 hr; exact (g3 x hx).1)
      (by
        apply hS.st
        intro k hk1
        obtain ⟨r, hr, hkr⟩ := mem_flatMap.1 hk1
        obtain ⟨x, hx, rfl⟩ := mem_map.1 hr
        simp only [Rep.keys, mem_singleton] at hkr
        rw [hkr]; exact (g3 x hx).2.1)
      (by simp only [extraOf, Option.getD_some]; rw [hsz]; exact hw.perm)
    rw [hsz] at t3
    refine ⟨.sum t, ?_, t2, ?_, t3, ?_⟩
    · simp only [Rep.T, SRep.T]
      rw [g1]
      show (mkSum W ((gl.map (·.2)).map Rep.key) (some s.perm) >>= _) = _
      rw [map_map, show (Rep.key ∘ fun x : Key × Key => x.2) = fun x => Rep.key x.2 from rfl, t1]
      rfl
    · intro k hk1
      obtain ⟨r, hr, hkr⟩ := (t4 k).1 hk1
      obtain ⟨x, hx, rfl⟩ := mem_map.1 hr
      simp only [Rep.keys, mem_singleton] at hkr
      rw [hkr]; exact (g3 x hx).2.1
    · intro R _ I hI
      have hIs := hI.toSized
      have hksq : (DMat.bdiag (gl.map fun x => (x.2.rho I).sem)).IsSq (s.size W) := by
        have := bdiag_isSq (R := R) gl (fun x => (x.2.rho I).sem) (fun x => x.2.size W) fun x hx => Key.rho_sq hIs (g3 x hx).1
        rw [map_map] at hsz
        rw [← hsz]; exact this
      obtain ⟨d1, d2⟩ := pick_argsort_pick hw.perm hksq
      have hq : (t.rho I).sem = (DMat.bdiag (gl.map fun x => (x.2.rho I).sem)).pick (argsort s.perm) (argsort s.perm) := by
        apply t6 R I hIs
        · rw [t3]; exact d1
        · simp only [extraOf, Option.getD_some]
          rw [d2, map_map]; rfl
      show (t.rho I).sem.transpose.mul (s.rho I).sem = DMat.one (s.size W)
      have e : s.c.expand.map (fun k => (k.rho I).sem) = gl.map fun x => (x.1.rho I).sem := by
        rw [← g2, map_map]; rfl
      refine inv_of_pick (C' := DMat.bdiag (gl.map fun x => (x.2.rho I).sem)) hw.perm (SRep.rho_sq hIs hw)
        (by rw [hq]; exact d1) (SRep.rho_pick hIs hw) (by rw [hq]; exact d2) ?_
      rw [e, DMat.transpose_bdiag, map_map, DMat.bdiag_mul gl (DMat.transpose ∘ fun x => (x.2.rho I).sem)]
      · have : (gl.map fun x => DMat.mul ((DMat.transpose ∘ fun x : Key × Key => (x.2.rho I).sem) x) (x.1.rho I).sem) =
            gl.map fun x => DMat.one (x.1.size W) :=
          map_congr_left fun x hx => (g3 x hx).2.2.2 R I hI
        rw [this, DMat.bdiag_one, show (gl.map fun x => x.1.size W) = (gl.map (·.1)).map (Key.size W) by rw [map_map]; rfl, g2, sum_map_expand]
        rfl
      · intro x hx
        have e1 := Key.rho_sq hIs (g3 x hx).1
        have hx1 : x.1 ∈ s.c.expand := by rw [← g2]; exact mem_map_of_mem (f := Prod.fst) hx
        have e2 := Key.rho_sq hIs (hk' x.1 hx1).1
        simp only [Function.comp, DMat.transpose_cols]
        rw [e1.1, e2.1, (g3 x hx).2.2.1]

end Verif
