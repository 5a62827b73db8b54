import Verif.Lemmas.MultiMul
import Verif.Lemmas.RepDrho

/-! Expressions over several groups. -/
namespace Verif
open List

variable {W : World} {Γ : Gid → Prop} {κ : Gid → ℕ} {g0 : Gid} {N : ℕ}

theorem Atom.lt_vec {k k' : ℕ} {g h : Gid} (hne : W.ghash g ≠ W.ghash h) :
    Atom.lt W (.vec k (some g)) (.vec k' (some h)) = decide (W.ghash g < W.ghash h) := by
  have e : Atom.lt W (.vec k (some g)) (.vec k' (some h)) = Key.ltRep W (.atom (.vec k (some g))) (.atom (.vec k' (some h))) := by
    unfold Atom.lt Key.lt
    split <;> simp_all
  rw [e]
  unfold Key.ltRep
  simp only [Key.G?, Fac.G, Atom.G, reduceCtorEq, if_false]
  by_cases h1 : W.ghash g < W.ghash h
  · simp [h1]
  · have h2 : W.ghash h < W.ghash g := by omega
    simp [h1, h2]

theorem Atom.lt_dual {k k' : ℕ} {g h : Gid} (hne : W.ghash g ≠ W.ghash h) :
    Atom.lt W (.dual k (some g)) (.dual k' (some h)) = decide (W.ghash g < W.ghash h) := by
  have e : Atom.lt W (.dual k (some g)) (.dual k' (some h)) = Key.ltRep W (.atom (.dual k (some g))) (.atom (.dual k' (some h))) := by
    simp [Atom.lt, Key.lt]
  rw [e]
  unfold Key.ltRep
  simp only [Key.G?, Fac.G, Atom.G, reduceCtorEq, if_false]
  by_cases h1 : W.ghash g < W.ghash h
  · simp [h1]
  · have h2 : W.ghash h < W.ghash g := by omega
    simp [h1, h2]

theorem World.GroupsOK.letters (h : W.GroupsOK Γ κ) : W.Letters Γ (letter κ) where
  G _ _ := rfl
  two g hg := h.two g hg
  inj := h.inj
  ord g g' hg hg' hne := Atom.lt_vec fun e => hne (h.inj g g' hg hg' e)

theorem letter_T_orth {g : Gid} (h : W.orth g = true) : (letter κ g).T W = letter κ g := by simp [letter, Atom.T, h]

theorem letter_T_not {g : Gid} (h : W.orth g = false) : (letter κ g).T W = .dual (κ g) (some g) := by simp [letter, Atom.T, h]

/-- If no group is flagged orthogonal the duals are a choice of one representation per group. -/
theorem World.GroupsOK.letters_dual (h : W.GroupsOK Γ κ) (ho : (∀ g, Γ g → W.orth g = true) ∨ ∀ g, Γ g → W.orth g = false) :
    W.Letters Γ fun g => (letter κ g).T W where
  G g _ := by rw [Atom.T_G]; rfl
  two g hg := by rw [Atom.T_size]; exact h.two g hg
  inj := h.inj
  ord g g' hg hg' hne := by
    rcases ho with ho | ho
    · rw [letter_T_orth (ho g hg), letter_T_orth (ho g' hg')]
      exact Atom.lt_vec fun e => hne (h.inj g g' hg hg' e)
    · rw [letter_T_not (ho g hg), letter_T_not (ho g' hg')]
      exact Atom.lt_dual fun e => hne (h.inj g g' hg hg' e)

theorem World.Multi.base {L : Gid → Atom} {k : Key} (h : W.Multi Γ L k) : k.base W = k := by
  match k, h with
  | .scalar, _ => rfl
  | .fac f, ⟨g, n, _, _, hf⟩ => simp only [Key.base]; rw [hf, Fac.power_base]
  | .dprod ⟨c, p⟩, ⟨l, _, _, _, _, hp⟩ =>
    simp only at hp
    simp only [Key.base]
    congr 2
    exact hp.symm

/-- how the groups of a product show in its canonical form -/
def Covers (k : Key) (gs : List Gid) : Prop :=
  (k = .scalar → gs = []) ∧ ∀ f, k = .fac f → gs ≠ [] ∧ ∀ h ∈ gs, f.G = some h

/-- **Products over several groups.** -/
theorem Mono.eval_good (hΓ : W.GroupsOK Γ κ) : ∀ m : Mono, (∀ g ∈ m.groups, Γ g) →
    ∃ k : Key, m.eval W κ = .ok (.key k) ∧ k.WF W ∧ W.Multi Γ (letter κ) (k.base W) ∧ k.size W = m.dim W κ ∧ Covers k m.groups ∧
      (∀ (R : Type) [CommRing R] (I : Interp R), I.Sized W → (k.rho I).sem = (m.den κ I).1) ∧
      ∀ (R : Type) [CommRing R] (I : Interp R), I.Sized W → Rep.dmat I (.key k) = (m.dden κ I).1
  | .scalar, _ => ⟨.scalar, rfl, trivial, trivial, rfl, ⟨fun _ => rfl, by simp⟩, fun R _ I _ => rfl, fun R _ I _ => rfl⟩
  | .rep g, h => by
    refine ⟨.atom (letter κ g), rfl, rfl, ⟨g, 1, h g (by simp [groups]), one_ne_zero, rfl⟩, rfl, ⟨by simp, ?_⟩, fun R _ I _ => rfl, fun R _ I _ => rfl⟩
    rintro f ⟨rfl⟩
    refine ⟨by simp [groups], ?_⟩
    intro x hx
    simp only [groups, mem_singleton] at hx
    subst hx; rfl
  | .mul a b, h => by
    obtain ⟨x, x1, x2, x3, x4, x5, x6, x7⟩ := Mono.eval_good hΓ a fun g hg => h g (by simp [groups, hg])
    obtain ⟨y, y1, y2, y3, y4, y5, y6, y7⟩ := Mono.eval_good hΓ b fun g hg => h g (by simp [groups, hg])
    obtain ⟨r, r1, r2, r3, r4, r5, r6, r7⟩ := hΓ.letters.mul x y x2 y2 x3 y3
    have hmul : Rep.mul W (.key x) (.key y) = .ok (.key r) := by
      by_cases hx : x = .scalar
      · subst hx
        simp only [Key.mul, Except.ok.injEq] at r1
        subst r1; simp [Rep.mul]
      · by_cases hy : y = .scalar
        · subst hy
          have : Key.mul W x .scalar = .ok x := by cases x <;> first | rfl | exact absurd rfl hx
          rw [this, Except.ok.injEq] at r1
          subst r1
          cases x <;> first | exact absurd rfl hx | rfl
        · have hcx : x.concrete = true := Rep.WF.concrete (W := W) (r := .key x) x2
          have hcy : y.concrete = true := Rep.WF.concrete (W := W) (r := .key y) y2
          have : Rep.mul W (.key x) (.key y) = (if x.concrete && y.concrete then do
              let r ← Key.mul W x y
              .ok (.key r)
            else mkDeferredProd [.key x, .key y] : Py Rep) := by
            cases x <;> cases y <;> first | exact absurd rfl hx | exact absurd rfl hy | rfl
          rw [this, hcx, hcy, r1]; rfl
    refine ⟨r, ?_, r2, r3, ?_, ⟨?_, ?_⟩, ?_, ?_⟩
    · simp only [eval]; rw [x1, y1]; exact hmul
    · rw [r4, x4, y4]; rfl
    · intro e
      simp only [groups]
      rw [x5.1 (r7 e).1, y5.1 (r7 e).2]; rfl
    · intro f hf
      simp only [groups]
      rcases r6 f hf with ⟨e1, e2⟩ | ⟨e1, e2⟩ | ⟨f1, f2, e1, e2, e3, e4⟩
      · rw [x5.1 e1]; exact y5.2 f e2
      · rw [y5.1 e2, append_nil]; exact x5.2 f e1
      · obtain ⟨u1, u2⟩ := x5.2 f1 e1
        obtain ⟨v1, v2⟩ := y5.2 f2 e2
        refine ⟨by simp [u1], ?_⟩
        intro z hz
        rcases mem_append.1 hz with hz | hz
        · rw [← e3]; exact u2 z hz
        · rw [← e4]; exact v2 z hz
    · intro R _ I hI
      rw [r5 R I hI, x6 R I hI, y6 R I hI]; rfl
    · intro R _ I hI
      have := Rep.dmat_kron (I := I) hI (r := .key r) (a := .key x) (b := .key y) r2 x2 y2 (r5 _ I.eps hI.eps)
      rw [this, x7 R I hI, y7 R I hI]; rfl

/-! ### Sums -/

theorem World.MultiAt.two (hW : W.MultiOK Γ κ g0 N) {k : Key} (h : W.MultiAt Γ κ g0 N k) (hk : k ≠ .scalar) : 2 ≤ k.size W := by
  have hp : ∀ g n, Γ g → n ≠ 0 → 2 ≤ (Fac.power W (letter κ g) n).size W := by
    intro g n hg hn
    rw [Fac.power_size]
    have h2 : 2 ≤ (letter κ g).size W := hW.two g hg
    calc 2 ≤ (letter κ g).size W := h2
      _ ≤ _ := Nat.le_self_pow hn _
  match k, h with
  | .scalar, _ => exact absurd rfl hk
  | .fac f, ⟨_, ⟨g, n, hg, hn, hf⟩, _⟩ => simp only [Key.size]; rw [hf]; exact hp g n hg hn
  | .dprod d, ⟨_, ⟨l, l1, l2, _, l4, _⟩, _⟩ =>
    simp only [Key.size, DRep.size, l4, Counter.prodSize, map_map]
    obtain ⟨x, t, rfl⟩ := exists_cons_of_ne_nil (l := l) (by rintro rfl; simp at l1)
    simp only [map_cons, prod_cons, Function.comp, pow_one]
    have h1 := hp x.1 x.2 (l2 x (by simp)).1 (l2 x (by simp)).2
    have h2 : 0 < (t.map fun x => (Fac.power W (letter κ x.1) x.2).size W).prod := prod_pos_of fun y hy => by
      have := hp y.1 y.2 (l2 y (by simp [hy])).1 (l2 y (by simp [hy])).2; omega
    calc 2 ≤ _ := h1
      _ ≤ _ := Nat.le_mul_of_pos_right _ h2
      _ = _ := by simp [Function.comp_def]

theorem World.MultiAt.lt_iff (hW : W.MultiOK Γ κ g0 N) {a b : Key} (ha : W.MultiAt Γ κ g0 N a) (hb : W.MultiAt Γ κ g0 N b) :
    Key.lt W a b = true ↔ a.size W < b.size W ∨ a.size W = b.size W ∧ W.hash a < W.hash b := by
  have hnd : ∀ k, W.MultiAt Γ κ g0 N k → ∀ j x, k ≠ .atom (.dual j x) := by
    rintro k hk j x rfl
    obtain ⟨-, ⟨g, n, -, -, hf⟩, -⟩ := hk
    have := congrArg Fac.counter hf
    rw [Fac.power_counter] at this
    simp [Fac.counter, letter] at this
  have hl : Key.lt W a b = Key.ltRep W a b := by
    unfold Key.lt
    split
    · exact absurd rfl (hnd _ hb _ _)
    · exact absurd rfl (hnd _ ha _ _)
    · rfl
  rw [hl]
  by_cases hbs : b = .scalar
  · subst hbs
    have e : Key.size W .scalar = 1 := rfl
    unfold Key.ltRep
    rw [if_pos rfl, e]
    by_cases has : a = .scalar
    · subst has; simp only [e]; simp
    · have := ha.two hW has
      simp only [Bool.false_eq_true, false_iff]; omega
  by_cases has : a = .scalar
  · subst has
    have h2 := hb.two hW hbs
    have e : Key.size W .scalar = 1 := rfl
    have h1 : Key.ltRep W .scalar b = true := by
      have hby : bySize W .scalar b = true := bySize_iff.2 (by rw [e]; omega)
      rcases hs : W.scalarG with _ | h
      · rw [Key.ltRep_noG hbs (Or.inr (Or.inl (by simp [Key.G?, hs])))]; exact hby
      · match b, hb, hbs, hby with
        | .scalar, _, h, _ => exact absurd rfl h
        | .dprod d, _, hbs, hby => rw [Key.ltRep_noG hbs (Or.inr (Or.inr (Or.inl rfl)))]; exact hby
        | .fac f, hb, hbs, hby =>
          have hle := hW.sG h hs
          unfold Key.ltRep
          rw [if_neg hbs]
          simp only [Key.G?, hs, hb.2.2 f rfl]
          by_cases hlt : W.ghash h < W.ghash g0
          · rw [if_pos hlt]
          · rw [if_neg hlt, if_neg (by omega)]; exact hby
    rw [h1, e]
    simp only [true_iff]; omega
  have hby : Key.ltRep W a b = bySize W a b := by
    match a, b, ha, hb, has, hbs with
    | .scalar, _, _, _, h, _ => exact absurd rfl h
    | _, .scalar, _, _, _, h => exact absurd rfl h
    | .dprod d, b, _, _, _, hbs => exact Key.ltRep_noG hbs (Or.inl rfl)
    | .fac f, .dprod d, _, _, _, hbs => exact Key.ltRep_noG hbs (Or.inr (Or.inr (Or.inl rfl)))
    | .fac f, .fac f', ha, hb, _, hbs =>
      exact Key.ltRep_sameG hbs (x := g0) (by simp [Key.G?, ha.2.2 f rfl]) (by simp [Key.G?, hb.2.2 f' rfl])
  rw [hby, bySize_iff]

theorem World.MultiOK.keyClass (hW : W.MultiOK Γ κ g0 N) : KeyClass W (W.MultiAt Γ κ g0 N) N where
  wf k h := by
    refine ⟨?_, h.2.1.base⟩
    have hs : ∀ g, Γ g → (letter κ g).G.isSome := fun _ _ => rfl
    match k, h with
    | .scalar, _ => trivial
    | .fac f, ⟨_, ⟨g, n, hg, hn, hf⟩, _⟩ => show f.WF W; rw [hf]; exact Fac.power_wf (hs g hg) hn
    | .dprod d, ⟨_, ⟨l, l1, l2, l3, l4, l5⟩, _⟩ =>
      have hk : d.c.keys = l.map fun x => Fac.power W (letter κ x.1) x.2 := by rw [l4, Counter.keys, map_map]; rfl
      have hone : ∀ kc ∈ d.c, kc.2 = 1 := by
        rw [l4]; intro kc hkc; obtain ⟨x, -, rfl⟩ := mem_map.1 hkc; rfl
      refine ⟨⟨?_, ?_, ?_, ?_⟩, hone, ?_, ?_, ?_⟩
      · rw [l4]; rintro e; simp only [map_eq_nil_iff] at e; rw [e] at l1; simp at l1
      · rw [hk]
        refine hW.letters.st fun f hf => ?_
        obtain ⟨x, hx, rfl⟩ := mem_map.1 hf
        exact ⟨x.1, x.2, (l2 x hx).1, (l2 x hx).2, rfl⟩
      · rw [hk, pairwise_map]
        have : l.Pairwise fun x y => x ∈ l ∧ y ∈ l ∧ W.ghash x.1 < W.ghash y.1 := by
          rw [pairwise_iff_getElem] at l3 ⊢
          intro i j hi hj hij
          exact ⟨getElem_mem _, getElem_mem _, l3 i j hi hj hij⟩
        refine this.imp fun {x y} hxy => ?_
        obtain ⟨hx, hy, hlt⟩ := hxy
        rw [hW.letters.lt_power (l2 x hx).1 (l2 y hy).1 (l2 x hx).2 (l2 y hy).2]; exact Or.inl hlt
      · intro kc hkc; rw [hone kc hkc]; exact one_ne_zero
      · rw [hk]; intro f hf; obtain ⟨x, hx, rfl⟩ := mem_map.1 hf; exact Fac.power_wf (hs _ (l2 x hx).1) (l2 x hx).2
      · rw [hk]; intro f hf; obtain ⟨x, hx, rfl⟩ := mem_map.1 hf; exact Fac.power_hashable _ _
      · rw [l5]
  pos k h := by
    by_cases hk : k = .scalar
    · subst hk; exact Nat.one_pos
    · have := h.two hW hk; omega
  le _ h := h.1
  st l h := by
    apply StrictTotalOn.of_rank (β := ℕ ×ₗ ℤ) fun k => toLex (k.size W, W.hash k)
    · intro a ha b hb
      rw [World.MultiAt.lt_iff hW (h a ha) (h b hb), Prod.Lex.toLex_lt_toLex]
    · intro a ha b hb hr
      exact hW.hinj a b (h a ha) (h b hb) (Prod.mk.inj hr).2
  mul a b ha hb hSa hSb hN := by
    obtain ⟨r, r1, r2, r3, r4, r5, r6, -⟩ := hW.letters.mul a b ha hb hSa.2.1 hSb.2.1
    refine ⟨r, r1, r2, ⟨?_, r3, ?_⟩, r4, r5⟩
    · rw [Key.size_base, r4]; exact hN
    · intro f hf
      have hG : ∀ {k : Key} {f : Fac}, k = .fac f → W.MultiAt Γ κ g0 N (k.base W) → f.G = some g0 := by
        rintro k f rfl h
        rw [← Fac.G_base (W := W)]; exact h.2.2 _ rfl
      match r, hf with
      | .fac f', hf =>
        simp only [Key.base, Key.fac.injEq] at hf
        rw [← hf, Fac.G_base]
        rcases r6 f' rfl with ⟨-, e⟩ | ⟨e, -⟩ | ⟨f1, f2, e1, -, e3, -⟩
        · exact hG e hSb
        · exact hG e hSa
        · rw [← e3]; exact hG e1 hSa

theorem World.MultiOK.dualClass (hW : W.MultiOK Γ κ g0 N) (ho : ∀ g, Γ g → W.orth g = true) : DualClass W (W.MultiAt Γ κ g0 N) where
  dual a ha hS := by
    obtain ⟨r, r1, r2, r3, r4, r5, r6⟩ := hW.letters.dual (hW.letters_dual (Or.inl ho)) a ha hS.2.1
    refine ⟨r, r1, r2, ⟨?_, ?_, ?_⟩, r4, r5⟩
    · rw [Key.size_base, r4, ← Key.size_base]; exact hS.1
    · match r, r3 with
      | .scalar, _ => trivial
      | .fac f, ⟨g, n, hg, hn, hf⟩ => exact ⟨g, n, hg, hn, by rw [hf]; beta_reduce; rw [letter_T_orth (ho g hg)]⟩
      | .dprod d, ⟨l, l1, l2, l3, l4, l5⟩ =>
        refine ⟨l, l1, l2, l3, ?_, l5⟩
        rw [l4]
        exact map_congr_left fun x hx => by beta_reduce; rw [letter_T_orth (ho _ (l2 x hx).1)]
    · intro f hf
      match r, hf with
      | .fac f', hf =>
        simp only [Key.base, Key.fac.injEq] at hf
        obtain ⟨f1, e1, e2⟩ := r6 f' rfl
        rw [← hf, Fac.G_base, e2]
        subst e1
        rw [← Fac.G_base (W := W)]; exact hS.2.2 _ rfl

theorem Mono.den_pair {R : Type} [CommRing R] {I : Interp R} (hI : I.Dual W) : ∀ m : Mono, InvPair (m.dim W κ) (m.den κ I)
  | .scalar => InvPair.one 1
  | .rep g => ⟨hI.vec _ g, hI.dual _ g, hI.inv _ g⟩
  | .mul a b => (a.den_pair hI).kron2 (b.den_pair hI)

theorem MExpr.den_pair {R : Type} [CommRing R] {I : Interp R} (hI : I.Dual W) : ∀ e : MExpr, InvPair (e.dim W κ) (e.den κ I)
  | .of m => m.den_pair hI
  | .add a b => (a.den_pair hI).bdiag2 (b.den_pair hI)
  | .mul a b => (a.den_pair hI).kron2 (b.den_pair hI)
  | .dual a => (a.den_pair hI).symm
  | .nsmul n a => by
    have := InvPair.bdiag (replicate n ()) (fun _ => a.den κ I) (fun _ => a.dim W κ) fun _ _ => a.den_pair hI
    simpa [MExpr.dim, MExpr.den] using this
  | .rshift a b => (b.den_pair hI).kron2 (a.den_pair hI).symm

theorem Mono.dden_eps {R : Type} [CommRing R] {I : Interp R} (hI : I.DDual W) : ∀ m : Mono, EpsPair (m.dim W κ) (m.dden κ I) (m.den κ I.eps)
  | .scalar => EpsPair.zero 1
  | .rep g => ⟨hI.sq _ g, hI.sized.dual _ g, rfl, rfl⟩
  | .mul a b => (a.dden_eps hI).kron (b.dden_eps hI)

theorem MExpr.dden_eps {R : Type} [CommRing R] {I : Interp R} (hI : I.DDual W) : ∀ e : MExpr, EpsPair (e.dim W κ) (e.dden κ I) (e.den κ I.eps)
  | .of m => m.dden_eps hI
  | .add a b => (a.dden_eps hI).bdiag2 (b.dden_eps hI)
  | .mul a b => (a.dden_eps hI).kron (b.dden_eps hI)
  | .dual a => (a.dden_eps hI).swap
  | .nsmul n a => (a.dden_eps hI).nsmul n
  | .rshift a b => (b.dden_eps hI).kron (a.dden_eps hI).swap

/-- What is proved of each subexpression. -/
def MExpr.Good (W : World) (κ : Gid → ℕ) (S : Key → Prop) (e : MExpr) (r : Rep) : Prop :=
  r.WF W ∧ (∀ k ∈ r.keys W, S k) ∧ r.size W = e.dim W κ ∧
    ∀ (R : Type) [CommRing R] (I : Interp R), I.Dual W → r.mat I = (e.den κ I).1

theorem MExpr.good_T {S : Key → Prop} (hS : KeyClass W S N) (hT : DualClass W S) {e : MExpr} {r : Rep} (h : e.Good W κ S r) :
    ∃ t, Rep.T W r = .ok t ∧ t.WF W ∧ (∀ k ∈ t.keys W, S k) ∧ t.size W = e.dim W κ ∧
      ∀ (R : Type) [CommRing R] (I : Interp R), I.Dual W → t.mat I = (e.den κ I).2 := by
  obtain ⟨h1, h2, h3, h4⟩ := h
  obtain ⟨t, t1, t2, t3, t4, t5⟩ := Rep.T_spec hS hT h1 h2
  refine ⟨t, t1, t2, t3, t4.trans h3, ?_⟩
  intro R _ I hI
  have hp := e.den_pair (W := W) (κ := κ) hI
  have hsq := Rep.mat_sq hI.toSized t2
  have h5 := t5 R I hI
  rw [h4 R I hI, h3] at h5
  rw [t4, h3] at hsq
  exact DMat.invT_unique hsq hp.sq2 hp.sq1 h5 hp.inv

/-- **Expressions over several groups.** -/
theorem MExpr.eval_good (hW : W.MultiOK Γ κ g0 N) : ∀ e : MExpr, e.OK W Γ g0 → e.bound W κ ≤ N →
    ∃ r, e.eval W κ = .ok r ∧ e.Good W κ (W.MultiAt Γ κ g0 N) r := by
  have hS := hW.keyClass
  intro e
  induction e with
  | of m =>
    intro hok hb
    obtain ⟨k, k1, k2, k3, k4, k5, k6, -⟩ := Mono.eval_good hW.toGroupsOK m hok.1
    refine ⟨.key k, k1, k2, ?_, k4, fun R _ I hI => k6 R I hI.toSized⟩
    intro x hx
    simp only [Rep.keys, mem_singleton] at hx
    rw [hx]
    refine ⟨by rw [Key.size_base, k4]; exact hb, k3, ?_⟩
    intro f hf
    match k, hf with
    | .fac f', hf =>
      simp only [Key.base, Key.fac.injEq] at hf
      rw [← hf, Fac.G_base]
      obtain ⟨c1, c2⟩ := k5.2 f' rfl
      obtain ⟨g, t, hg⟩ := exists_cons_of_ne_nil c1
      have hgm : g ∈ m.groups := by rw [hg]; simp
      have := hok.2 g hgm fun h hh => Option.some.inj ((c2 h hh).symm.trans (c2 g hgm))
      rw [c2 g hgm, this]
  | add a b iha ihb =>
    intro hok hb
    simp only [bound, max_le_iff] at hb
    obtain ⟨x, x1, x2, x3, x4, x5⟩ := iha hok.1 hb.1
    obtain ⟨y, y1, y2, y3, y4, y5⟩ := ihb hok.2 hb.2
    obtain ⟨r, r1, r2, r3, r4, r5⟩ := Rep.add_spec x2 y2 (hS.st _ (by
        intro k hk; rcases mem_append.1 hk with hk | hk; exacts [x3 k hk, y3 k hk]))
    refine ⟨r, ?_, r2, ?_, ?_, ?_⟩
    · simp only [eval]; rw [x1, y1]; exact r1
    · intro k hk; rcases (r3 k).1 hk with hk | hk; exacts [x3 k hk, y3 k hk]
    · rw [r4, x4, y4]; rfl
    · intro R _ I hI; rw [r5 R I hI.toSized, x5 R I hI, y5 R I hI]; rfl
  | mul a b iha ihb =>
    intro hok hb
    simp only [bound, max_le_iff] at hb
    obtain ⟨x, x1, x2, x3, x4, x5⟩ := iha hok.1 hb.2.1
    obtain ⟨y, y1, y2, y3, y4, y5⟩ := ihb hok.2 hb.2.2
    obtain ⟨r, r1, r2, r3, r4, r5⟩ := Rep.mul_spec hS x2 y2 x3 y3 (by rw [x4, y4]; exact hb.1)
    refine ⟨r, ?_, r2, r3, ?_, ?_⟩
    · simp only [eval]; rw [x1, y1]; exact r1
    · rw [r4, x4, y4]; rfl
    · intro R _ I hI; rw [r5 R I hI.toSized, x5 R I hI, y5 R I hI]; rfl
  | dual a iha =>
    intro hok hb
    obtain ⟨x, x1, x2⟩ := iha hok.2 hb
    obtain ⟨t, t1, t2, t3, t4, t5⟩ := MExpr.good_T hS (hW.dualClass hok.1) x2
    refine ⟨t, ?_, t2, t3, t4, t5⟩
    simp only [eval]; rw [x1]; exact t1
  | nsmul n a iha =>
    intro hok hb
    obtain ⟨x, x1, x2, x3, x4, x5⟩ := iha hok.2 hb
    obtain ⟨r, r1, r2, r3, r4, r5⟩ := Rep.mulInt_spec x2 (hS.st _ x3) hok.1
    refine ⟨r, ?_, r2, ?_, ?_, ?_⟩
    · simp only [eval]; rw [x1]; show (Rep.mulInt W x n >>= _) = _; rw [r1]; rfl
    · intro k hk; exact x3 k ((r4 k).1 hk)
    · rw [r3, x4]; rfl
    · intro R _ I hI; rw [r5 R I hI.toSized, x5 R I hI]; rfl
  | rshift a b iha ihb =>
    intro hok hb
    simp only [bound, max_le_iff] at hb
    obtain ⟨x, x1, x2⟩ := iha hok.2.1 hb.2.1
    obtain ⟨y, y1, y2, y3, y4, y5⟩ := ihb hok.2.2 hb.2.2
    obtain ⟨t, t1, t2, t3, t4, t5⟩ := MExpr.good_T hS (hW.dualClass hok.1) x2
    obtain ⟨r, r1, r2, r3, r4, r5⟩ := Rep.mul_spec hS y2 t2 y3 t3 (by rw [t4, y4]; exact hb.1)
    refine ⟨r, ?_, r2, r3, ?_, ?_⟩
    · simp only [eval, Rep.rshift]; rw [x1, y1]; show (Rep.T W x >>= _) = _; rw [t1]; exact r1
    · rw [r4, y4, t4]; rfl
    · intro R _ I hI; rw [r5 R I hI.toSized, t5 R I hI, y5 R I hI]; rfl

end Verif
