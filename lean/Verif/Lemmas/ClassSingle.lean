import Verif.Spec.Single
import Verif.Lemmas.ProdExpand
import Mathlib.Data.Prod.Lex

/-! Representations of a single group form a closed class. -/
namespace Verif
open List

variable {W : World} {g : Gid} {N : ℕ}

theorem StrictTotalOn.of_rank {α β : Type*} [LinearOrder β] {lt : α → α → Bool} {l : List α} (r : α → β)
    (h : ∀ a ∈ l, ∀ b ∈ l, lt a b = true ↔ r a < r b) (hi : ∀ a ∈ l, ∀ b ∈ l, r a = r b → a = b) : StrictTotalOn lt l where
  irrefl a ha := by
    rw [← Bool.not_eq_true, h a ha a ha]; exact lt_irrefl _
  trans a ha b hb c hc h1 h2 := by
    rw [h a ha b hb] at h1; rw [h b hb c hc] at h2; rw [h a ha c hc]; exact h1.trans h2
  total a ha b hb hab := by
    rw [h a ha b hb, h b hb a ha]
    exact lt_or_gt_of_ne fun he => hab (hi a ha b hb he)

theorem World.Letter.G {a : Atom} (h : W.Letter g a) : a.G = some g := by
  rcases h.1 with ⟨-, k, rfl⟩ | ⟨-, rfl | rfl⟩ <;> rfl

theorem World.Letter.size {a : Atom} (h : W.Letter g a) (ho : W.orth g = false) : a.size W = W.d g := by
  rcases h.1 with ⟨h1, -⟩ | ⟨-, rfl | rfl⟩
  · rw [ho] at h1; simp at h1
  · simp [Atom.size, World.asize]
  · simp [Atom.size, World.asize]

/-- Position of a summand in the order. -/
def singleRank (W : World) (g : Gid) (k : Key) : ℕ ×ₗ ℕ ×ₗ ℤ :=
  toLex (k.size W, toLex (if W.orth g = false ∧ k = .atom (.vec 0 (some g)) then 0 else 1, W.hash k))

theorem lex3_lt {a b c d : ℕ} {x y : ℤ} :
    (toLex (a, toLex (b, x)) : ℕ ×ₗ ℕ ×ₗ ℤ) < toLex (c, toLex (d, y)) ↔ a < c ∨ a = c ∧ (b < d ∨ b = d ∧ x < y) := by
  rw [Prod.Lex.toLex_lt_toLex, Prod.Lex.toLex_lt_toLex]

/-- The size-then-hash comparison. -/
def bySize (W : World) (a b : Key) : Bool :=
  if a.size W < b.size W then true
  else if b.size W < a.size W then false
  else decide (W.hash a < W.hash b)

theorem bySize_iff {a b : Key} : bySize W a b = true ↔ a.size W < b.size W ∨ a.size W = b.size W ∧ W.hash a < W.hash b := by
  unfold bySize
  split
  · simp; omega
  · split
    · simp; omega
    · simp; omega

theorem Key.ltRep_sameG {a b : Key} (hb : b ≠ .scalar) {x : Gid} (ha : a.G? W = some (some x)) (hb' : b.G? W = some (some x)) :
    Key.ltRep W a b = bySize W a b := by
  unfold Key.ltRep
  rw [if_neg hb, ha, hb']
  simp only [lt_irrefl, if_false]
  rfl

theorem Key.ltRep_noG {a b : Key} (hb : b ≠ .scalar) (h : a.G? W = none ∨ a.G? W = some none ∨ b.G? W = none ∨ b.G? W = some none) :
    Key.ltRep W a b = bySize W a b := by
  unfold Key.ltRep
  rw [if_neg hb]
  rcases h with h | h | h | h <;> rw [h]
  · rfl
  · rfl
  · rcases a.G? W with _ | _ | _ <;> rfl
  · rcases a.G? W with _ | _ | _ <;> rfl

theorem World.Single.G {k : Key} (h : W.Single g N k) (hk : k ≠ .scalar) : k.G? W = some (some g) := by
  match k, h with
  | .scalar, _ => exact absurd rfl hk
  | .fac (.atom a), h => simp only [Key.G?, Fac.G]; rw [World.Letter.G h.2]
  | .fac (.prod p), h =>
    simp only [Key.G?, Fac.G, PRep.G]
    obtain ⟨-, hw, -, hl, -⟩ := h
    obtain ⟨kc, t, hc⟩ := exists_cons_of_ne_nil hw.cnt.ne
    rw [hc]
    simp only [head?_cons, Option.bind_some]
    rw [World.Letter.G (hl kc.1 (by simp [hc, Counter.keys]))]
  | .dprod d, h => exact h.2.elim

theorem World.Single.two {k : Key} (h : W.Single g N k) (hk : k ≠ .scalar) : 2 ≤ k.size W := by
  match k, h with
  | .scalar, _ => exact absurd rfl hk
  | .fac (.atom a), h => exact h.2.2
  | .fac (.prod p), h => exact h.2.2.2.2.1
  | .dprod d, h => exact h.2.elim

theorem World.Single.lt_iff (hW : W.SingleOK g N) {a b : Key} (ha : W.Single g N a) (hb : W.Single g N b) :
    Key.lt W a b = true ↔ singleRank W g a < singleRank W g b := by
  unfold singleRank
  rw [lex3_lt]
  by_cases hbs : b = .scalar
  · -- nothing is below the scalar
    subst hbs
    have h1 : Key.lt W a .scalar = false := by
      unfold Key.lt Key.ltRep
      split <;> simp_all
    rw [h1]
    by_cases has : a = .scalar
    · subst has; simp
    · have := ha.two has
      have e : Key.size W .scalar = 1 := rfl
      rw [e]
      constructor
      · intro h; simp at h
      · intro h; omega
  by_cases has : a = .scalar
  · subst has
    have h2 := hb.two hbs
    have e : Key.size W .scalar = 1 := rfl
    have h1 : Key.lt W .scalar b = true := by
      have hl : Key.lt W .scalar b = Key.ltRep W .scalar b := by
        unfold Key.lt; split <;> simp_all
      rw [hl]
      rcases hs : W.scalarG with _ | h
      · rw [Key.ltRep_noG hbs (Or.inr (Or.inl (by simp [Key.G?, hs]))), bySize_iff, e]; omega
      · have hle := hW.sG h hs
        unfold Key.ltRep
        rw [if_neg hbs, hb.G hbs]
        simp only [Key.G?, hs]
        by_cases hlt : W.ghash h < W.ghash g
        · rw [if_pos hlt]
        · rw [if_neg hlt, if_neg (by omega)]
          have := (bySize_iff (W := W) (a := .scalar) (b := b)).2 (by rw [e]; omega)
          exact this
    rw [h1, e]
    simp only [true_iff]; omega
  have hrep : Key.ltRep W a b = true ↔ a.size W < b.size W ∨ a.size W = b.size W ∧ W.hash a < W.hash b := by
    rw [Key.ltRep_sameG hbs (ha.G has) (hb.G hbs), bySize_iff]
  rcases ho : W.orth g with _ | _
  · -- not orthogonal: sizes `d` only for V and its dual
    have hsz : ∀ k, W.Single g N k → k ≠ .scalar → (k = .atom (.vec 0 (some g)) ∧ k.size W = W.d g) ∨
        (k = .atom (.dual 0 (some g)) ∧ k.size W = W.d g) ∨ (∃ p, k = .fac (.prod p)) ∧ W.d g < k.size W := by
      intro k hk hks
      match k, hk, hks with
      | .scalar, _, h => exact absurd rfl h
      | .fac (.atom x), hk, _ =>
        have hx := hk.2
        have hs := hx.size ho
        rcases hx.1 with ⟨h1, -⟩ | ⟨-, rfl | rfl⟩
        · rw [ho] at h1; simp at h1
        · exact Or.inl ⟨rfl, hs⟩
        · exact Or.inr (Or.inl ⟨rfl, hs⟩)
      | .fac (.prod p), hk, _ => exact Or.inr (Or.inr ⟨⟨p, rfl⟩, hk.2.2.2.2.2.1 ho⟩)
      | .dprod d, hk, _ => exact hk.2.elim
    rcases hsz a ha has with ⟨rfl, sa⟩ | ⟨rfl, sa⟩ | ⟨⟨pa, rfl⟩, sa⟩ <;>
      rcases hsz b hb hbs with ⟨rfl, sb⟩ | ⟨rfl, sb⟩ | ⟨⟨pb, rfl⟩, sb⟩
    · have : Key.lt W (.atom (.vec 0 (some g))) (.atom (.vec 0 (some g))) = Key.ltRep W (.atom (.vec 0 (some g))) (.atom (.vec 0 (some g))) := rfl
      rw [this, hrep]; simp
    · have : Key.lt W (.atom (.vec 0 (some g))) (.atom (.dual 0 (some g))) = true := rfl
      rw [this, sa, sb]; simp
    · have : Key.lt W (.atom (.vec 0 (some g))) (.fac (.prod pb)) = Key.ltRep W (.atom (.vec 0 (some g))) (.fac (.prod pb)) := rfl
      rw [this, hrep]; simp only [sa]; omega
    · have : Key.lt W (.atom (.dual 0 (some g))) (.atom (.vec 0 (some g))) = false := by
        simp [Key.lt]
      rw [this, sa, sb]; simp
    · have : Key.lt W (.atom (.dual 0 (some g))) (.atom (.dual 0 (some g))) = Key.ltRep W (.atom (.dual 0 (some g))) (.atom (.dual 0 (some g))) := by
        simp [Key.lt]
      rw [this, hrep]; simp
    · have : Key.lt W (.atom (.dual 0 (some g))) (.fac (.prod pb)) = Key.ltRep W (.atom (.dual 0 (some g))) (.fac (.prod pb)) := by
        simp [Key.lt]
      rw [this, hrep]; simp only [sa]; omega
    · have : Key.lt W (.fac (.prod pa)) (.atom (.vec 0 (some g))) = Key.ltRep W (.fac (.prod pa)) (.atom (.vec 0 (some g))) := rfl
      rw [this, hrep]; simp only [sb]; omega
    · have : Key.lt W (.fac (.prod pa)) (.atom (.dual 0 (some g))) = Key.ltRep W (.fac (.prod pa)) (.atom (.dual 0 (some g))) := rfl
      rw [this, hrep]; simp only [sb]; omega
    · have : Key.lt W (.fac (.prod pa)) (.fac (.prod pb)) = Key.ltRep W (.fac (.prod pa)) (.fac (.prod pb)) := rfl
      rw [this, hrep]; simp
  · -- orthogonal: no duals
    have hnd : ∀ k, W.Single g N k → ∀ j x, k ≠ .atom (.dual j x) := by
      rintro k hk j x rfl
      rcases hk.2.1 with ⟨-, i, h⟩ | ⟨h, -⟩
      · simp at h
      · rw [ho] at h; simp at h
    have hl : Key.lt W a b = Key.ltRep W a b := by
      unfold Key.lt
      split
      · exact absurd rfl (hnd _ hb _ _)
      · exact absurd rfl (hnd _ ha _ _)
      · rfl
    rw [hl, hrep]; simp

theorem World.Single.st (hW : W.SingleOK g N) (l : List Key) (h : ∀ k ∈ l, W.Single g N k) : StrictTotalOn (Key.lt W) l := by
  apply StrictTotalOn.of_rank (singleRank W g)
  · intro a ha b hb; exact World.Single.lt_iff hW (h a ha) (h b hb)
  · intro a ha b hb hr
    unfold singleRank at hr
    have := Prod.mk.inj hr
    have h3 := Prod.mk.inj this.2
    exact hW.inj a b (h a ha) (h b hb) h3.2

theorem World.Single.wf {k : Key} (h : W.Single g N k) : k.WF W ∧ k.base W = k := by
  match k, h with
  | .scalar, _ => exact ⟨trivial, rfl⟩
  | .fac (.atom a), h =>
    refine ⟨?_, rfl⟩
    show a.G.isSome
    rw [World.Letter.G h.2]; rfl
  | .fac (.prod p), h =>
    refine ⟨h.2.1, ?_⟩
    obtain ⟨c, perm⟩ := p
    have := h.2.2.1
    simp only at this
    simp only [Key.base, Fac.base]
    rw [this]; rfl
  | .dprod d, h => exact h.2.elim

theorem World.Single.pos {k : Key} (h : W.Single g N k) : 0 < k.size W := by
  by_cases hk : k = .scalar
  · subst hk; exact Nat.one_pos
  · have := h.two hk; omega

/-- the letters of a factor -/
theorem World.Single.letters {f : Fac} (h : W.Single g N (.fac (f.base W))) : ∀ a ∈ f.counter.keys, W.Letter g a := by
  match f, h with
  | .atom a, h =>
    intro x hx
    simp only [Fac.counter, Counter.keys, map_cons, map_nil, mem_singleton] at hx
    subst hx; exact h.2
  | .prod p, h => exact h.2.2.2.1

theorem Atom.size_le_prod {f : Fac} (hf : f.WF W) (hl : ∀ a ∈ f.counter.keys, 2 ≤ a.size W) : ∀ a ∈ f.counter.keys, a.size W ≤ f.size W := by
  intro a ha
  rw [← Fac.counter_size]
  obtain ⟨kc, hkc, rfl⟩ := mem_map.1 ha
  have hpos : ∀ x ∈ f.counter.map fun kc => kc.1.size W ^ kc.2, 1 ≤ x := by
    intro x hx
    obtain ⟨kc', hkc', rfl⟩ := mem_map.1 hx
    apply Nat.one_le_pow
    have := hl kc'.1 (mem_map_of_mem (f := Prod.fst) hkc'); omega
  have h1 : kc.1.size W ^ kc.2 ∈ f.counter.map fun kc => kc.1.size W ^ kc.2 := mem_map_of_mem (f := fun kc : Atom × ℕ => kc.1.size W ^ kc.2) hkc
  have h2 : kc.1.size W ^ kc.2 ≤ (f.counter.map fun kc => kc.1.size W ^ kc.2).prod := List.single_le_prod hpos _ h1
  have h3 : kc.1.size W ≤ kc.1.size W ^ kc.2 := Nat.le_self_pow (Fac.counter_pos hf kc hkc) _
  exact h3.trans h2

theorem World.Single.mul (hW : W.SingleOK g N) (a b : Key) (ha : a.WF W) (hb : b.WF W) (hSa : W.Single g N (a.base W))
    (hSb : W.Single g N (b.base W)) (hN : a.size W * b.size W ≤ N) :
    ∃ r, Key.mul W a b = .ok r ∧ r.WF W ∧ W.Single g N (r.base W) ∧ r.size W = a.size W * b.size W ∧
      ∀ (R : Type) [CommRing R] (I : Interp R), I.Sized W →
        (r.rho I).sem = DMat.kron (a.rho I).sem (b.rho I).sem := by
  match a, b, ha, hb, hSa, hSb with
  | .scalar, b, ha, hb, hSa, hSb =>
    refine ⟨b, rfl, hb, hSb, by simp [Key.size], ?_⟩
    intro R _ I _
    simp [Key.rho, LinOp.sem, DMat.one_kron]
  | .fac f, .scalar, ha, hb, hSa, hSb =>
    refine ⟨.fac f, rfl, ha, hSa, by simp [Key.size], ?_⟩
    intro R _ I _
    simp [Key.rho, LinOp.sem, DMat.kron_one]
  | .dprod d, _, ha, hb, hSa, hSb => exact hSa.2.elim
  | .fac f, .dprod d, ha, hb, hSa, hSb => exact hSb.2.elim
  | .fac f, .fac f', ha, hb, hSa, hSb =>
    have hG : ∀ f : Fac, f.WF W → W.Single g N (.fac (f.base W)) → f.G = some g := by
      intro f hf h
      have := h.G (by simp)
      simp only [Key.G?, Fac.G_base] at this
      exact Option.some.inj this
    have hl1 := hSa.letters
    have hl2 := hSb.letters
    have hsz1 : 2 ≤ f.size W := by have := hSa.two (by simp [Key.base]); rwa [Key.size_base] at this
    have hsz2 : 2 ≤ f'.size W := by have := hSb.two (by simp [Key.base]); rwa [Key.size_base] at this
    have hN' : f.size W * f'.size W ≤ N := hN
    have hle1 : f.size W ≤ N := le_trans (Nat.le_mul_of_pos_right _ (by omega)) hN'
    have hle2 : f'.size W ≤ N := le_trans (Nat.le_mul_of_pos_left _ (by omega)) hN'
    obtain ⟨p, p1, p2, p3, p4, p5, p6, p7⟩ := mkProd_spec_none (W := W) (ops := [f, f']) (g := g) (by simp)
      (by intro x hx; simp at hx; rcases hx with rfl | rfl <;> assumption)
      (by intro x hx; simp at hx; rcases hx with rfl | rfl; exacts [hG _ ha hSa, hG _ hb hSb])
      (by
        have hs := World.Single.st hW (([f, f'].flatMap fun f => f.counter.keys).map Key.atom) (by
          intro k hk
          obtain ⟨x, hx, rfl⟩ := mem_map.1 hk
          simp only [flatMap_cons, flatMap_nil, append_nil, mem_append] at hx
          rcases hx with hx | hx
          · exact ⟨le_trans (Atom.size_le_prod ha (fun a h => (hl1 a h).2) x hx) hle1, hl1 x hx⟩
          · exact ⟨le_trans (Atom.size_le_prod hb (fun a h => (hl2 a h).2) x hx) hle2, hl2 x hx⟩)
        constructor
        · intro x hx; exact hs.irrefl _ (mem_map_of_mem hx)
        · intro x hx y hy z hz
          exact hs.trans _ (mem_map_of_mem hx) _ (mem_map_of_mem hy) _ (mem_map_of_mem hz)
        · intro x hx y hy hxy
          exact hs.total _ (mem_map_of_mem hx) _ (mem_map_of_mem hy) (by simpa [Key.atom] using hxy))
    simp only [map_cons, map_nil, prod_cons, prod_nil, mul_one] at p4
    refine ⟨.fac (.prod p), ?_, p2, ?_, p4, ?_⟩
    · simp only [Key.mul]
      rw [if_pos (by rw [hG _ ha hSa, hG _ hb hSb]), p1]; rfl
    · refine ⟨?_, p2.base, rfl, ?_, ?_, ?_, ?_⟩
      · show p.size W ≤ N
        rw [p4]; exact hN'
      · intro x hx
        obtain ⟨y, hy, hxy⟩ := (p5 x).1 hx
        simp at hy
        rcases hy with rfl | rfl
        · exact hl1 x hxy
        · exact hl2 x hxy
      · show 2 ≤ p.size W
        rw [p4]; nlinarith
      · intro ho
        show W.d g < p.size W
        have hd : ∀ f : Fac, W.Single g N (.fac (f.base W)) → W.d g ≤ f.size W := by
          intro f h
          match f, h with
          | .atom x, h => exact (World.Letter.size h.2 ho).ge
          | .prod q, h => exact (h.2.2.2.2.2.1 ho).le
        have := hd f hSa
        rw [p4]; nlinarith
      · have he := (mkProd_expand (ops := [f, f']) (by intro x hx; simp at hx; rcases hx with rfl | rfl <;> assumption) p6).length_eq
        have h1 := Fac.letters_length ha
        have h2 := Fac.letters_length hb
        show 2 ≤ p.c.expand.length
        rw [he]; simp; omega
    · intro R _ I hI
      show (p.rho I).sem = _
      rw [p7 R I hI]
      simp [DMat.kronL, DMat.kron_one, Key.rho]

theorem World.SingleOK.keyClass (hW : W.SingleOK g N) : KeyClass W (W.Single g N) N where
  wf _ h := h.wf
  pos _ h := h.pos
  le _ h := h.1
  st := World.Single.st hW
  mul := World.Single.mul hW

end Verif
