import Verif.Model.GroupRepr
import Verif.Props.GroupProducts
import Verif.Props.MatrixGroups

/-!
# Equality of groups
-/
namespace Verif
open Matrix List

/-- The factors of a product of plain groups, left to right. -/
def GDesc.factors : GDesc → Option (List (Cls × List ℕ))
  | .plain c args => if c.validArgs args then some [(c, args)] else none
  | .prod a b => match a.factors, b.factors with
    | some x, some y => some (x ++ y)
    | _, _ => none
  | .embed _ _ _ => none

theorem reprNat_inj {m n : ℕ} (h : reprNat m = reprNat n) : m = n := by
  have := congrArg (fun l => Nat.ofDigitChars 10 l 0) h
  simpa [reprNat, Nat.ofDigitChars_toDigits] using this

theorem reprNat_digit {n : ℕ} {c : Char} (h : c ∈ reprNat n) : c.isDigit = true := Nat.isDigit_of_mem_toDigits (by norm_num) (by norm_num) h

theorem append_sep_inj {α : Type*} {a a' : List α} {c : α} {s s' : List α} (ha : c ∉ a) (ha' : c ∉ a') (h : a ++ c :: s = a' ++ c :: s') : a = a' ∧ s = s' := by
  induction a generalizing a' with
  | nil =>
    cases a' with
    | nil => exact ⟨rfl, by simpa using h⟩
    | cons x t =>
      simp only [nil_append, cons_append, cons.injEq] at h
      exact absurd (by simp [h.1]) ha'
  | cons x t ih =>
    cases a' with
    | nil =>
      simp only [nil_append, cons_append, cons.injEq] at h
      exact absurd (by simp [h.1]) ha
    | cons y t' =>
      simp only [cons_append, cons.injEq] at h
      obtain ⟨rfl, rfl⟩ := ih (fun hc => ha (by simp [hc])) (fun hc => ha' (by simp [hc])) h.2
      simp [h.1]

/-- The part of a name before the first `x`. -/
def Cls.stem (c : Cls) : List Char := c.name.toList.takeWhile (fun x => x != 'x' && x != '(')

/-- All classes. -/
def Cls.all : List Cls := [.Trivial, .SO, .O, .C, .D, .Scaling, .Parity, .TimeReversal, .SO13p, .SO13, .O13, .Lorentz, .SO11p, .O11,
  .Sp, .Z, .S, .SL, .GL, .U, .SU, .Cube, .RubiksCube, .ZksZnxZn]

theorem Cls.mem_all (c : Cls) : c ∈ Cls.all := by cases c <;> decide

theorem stem_inj (c c' : Cls) : c.stem = c'.stem → c = c' := by
  have : ∀ c ∈ Cls.all, ∀ c' ∈ Cls.all, c.stem = c'.stem → c = c' := by decide +kernel
  exact this c c.mem_all c' c'.mem_all

theorem stem_rest : ∀ c : Cls, c.name.toList = c.stem ∨ ∃ t, c.name.toList = c.stem ++ 'x' :: t := by
  intro c
  by_cases hc : c = .ZksZnxZn
  · subst hc
    exact .inr ⟨"Zn".toList, by decide +kernel⟩
  · left
    have : ∀ c ∈ Cls.all, c ≠ .ZksZnxZn → c.name.toList = c.stem := by decide +kernel
    exact this c c.mem_all hc

theorem stem_chars : ∀ c : Cls, ∀ x ∈ c.stem, (x != 'x' && x != '(') = true := by
  intro c x hx
  have : ∀ l : List Char, x ∈ l.takeWhile (fun x => x != 'x' && x != '(') → (x != 'x' && x != '(') = true := by
    intro l
    induction l with
    | nil => simp
    | cons y t ih =>
      rw [takeWhile_cons]
      split
      · intro h
        rcases mem_cons.1 h with rfl | h
        · assumption
        · exact ih h
      · simp
  exact this _ hx

/-- Reading off the class and the arguments of the first factor. -/
theorem plain_prefix {c c' : Cls} {args args' : List ℕ} (hv : c.validArgs args = true) (hv' : c'.validArgs args' = true) {s s' : List Char}
    (hs : s = [] ∨ ∃ t, s = 'x' :: t) (hs' : s' = [] ∨ ∃ t, s' = 'x' :: t)
    (h : plainRepr c args ++ s = plainRepr c' args' ++ s') : c = c' ∧ args = args' ∧ s = s' := by
  have key : ∀ (c : Cls) (args : List ℕ) (s : List Char), (s = [] ∨ ∃ t, s = 'x' :: t) →
      (plainRepr c args ++ s).takeWhile (fun x => x != 'x' && x != '(') = c.stem := by
    intro c args s hs
    have hst := stem_chars c
    unfold plainRepr
    obtain ⟨r, hr, he⟩ : ∃ r, (r = [] ∨ ∃ x t, (x != 'x' && x != '(') = false ∧ r = x :: t) ∧
        c.name.toList ++ (if args.isEmpty then [] else '(' :: ((args.map reprNat).flatten ++ [')'])) ++ s = c.stem ++ r := by
      rcases stem_rest c with e | ⟨t, e⟩
      · rw [e]
        by_cases ha : args.isEmpty
        · rw [if_pos ha, append_nil]
          rcases hs with rfl | ⟨t, rfl⟩
          · exact ⟨[], .inl rfl, rfl⟩
          · exact ⟨_, .inr ⟨'x', t, by decide, rfl⟩, rfl⟩
        · rw [if_neg ha, append_assoc]
          exact ⟨_, .inr ⟨'(', _, by decide, rfl⟩, rfl⟩
      · rw [e, append_assoc, append_assoc]
        exact ⟨_, .inr ⟨'x', _, by decide, rfl⟩, rfl⟩
    rw [he, takeWhile_append_of_pos hst]
    rcases hr with rfl | ⟨x, t, hx, rfl⟩
    · simp
    · rw [takeWhile_cons, hx]
      simp
  have hc : c = c' := stem_inj _ _ (by rw [← key c args s hs, ← key c' args' s' hs', h])
  subst hc
  refine ⟨rfl, ?_⟩
  unfold plainRepr at h
  rw [append_assoc, append_assoc, append_cancel_left_eq] at h
  have hdig : ∀ (l : List ℕ), ')' ∉ (l.map reprNat).flatten := by
    intro l hm
    obtain ⟨x, hx, hm⟩ := mem_flatten.1 hm
    obtain ⟨n, _, rfl⟩ := mem_map.1 hx
    have := reprNat_digit hm
    revert this
    decide
  simp only [Cls.validArgs, Bool.and_eq_true, beq_iff_eq, Bool.or_eq_true] at hv hv'
  have hlen : args.length = args'.length := hv.1.trans hv'.1.symm
  have hne : args.isEmpty = args'.isEmpty := by
    clear h key hdig
    cases args <;> cases args' <;> simp at hlen ⊢
  by_cases ha : args.isEmpty
  · rw [if_pos ha, if_pos (hne ▸ ha)] at h
    have h1 : args = [] := by simpa using ha
    have h2 : args' = [] := by rw [hne] at ha; simpa using ha
    exact ⟨by rw [h1, h2], by simpa using h⟩
  · rw [if_neg ha, if_neg (hne ▸ ha)] at h
    simp only [cons_append, cons.injEq, true_and, append_assoc, nil_append] at h
    obtain ⟨h1, h2⟩ := append_sep_inj (hdig _) (hdig _) h
    refine ⟨?_, h2⟩
    clear h hne key
    have har : ∀ c ∈ Cls.all, c.arity ≤ 2 ∧ (c.arity = 2 → c = .ZksZnxZn) := by decide +kernel
    obtain ⟨h3, h4⟩ := har c c.mem_all
    match args, args', hlen with
    | [], [], _ => rfl
    | [n], [n'], _ =>
      simp only [map_cons, map_nil, flatten_cons, flatten_nil, append_nil] at h1
      rw [reprNat_inj h1]
    | [k, n], [k', n'], _ =>
      obtain rfl := h4 hv.1.symm
      simp only [bne_self_eq_false, Bool.false_eq_true, false_or, head?_cons, Option.some.injEq] at hv hv'
      simp only [map_cons, map_nil, flatten_cons, flatten_nil, append_nil] at h1
      have e2 : reprNat 2 = ['2'] := by decide
      have e4 : reprNat 4 = ['4'] := by decide
      rcases hv.2 with rfl | rfl <;> rcases hv'.2 with rfl | rfl <;> simp only [e2, e4, cons_append, nil_append, cons.injEq] at h1
      · rw [reprNat_inj h1.2]
      · exact absurd h1.1 (by decide)
      · exact absurd h1.1 (by decide)
      · rw [reprNat_inj h1.2]
    | _ :: _ :: _ :: _, _, _ =>
      simp only [length_cons] at hv
      omega

/-- Printed form of a product from its factors. -/
def reprFactors : List (Cls × List ℕ) → List Char
  | [] => []
  | [(c, a)] => plainRepr c a
  | (c, a) :: t => plainRepr c a ++ 'x' :: reprFactors t

theorem reprFactors_append {x y : List (Cls × List ℕ)} (hx : x ≠ []) (hy : y ≠ []) : reprFactors (x ++ y) = reprFactors x ++ 'x' :: reprFactors y := by
  induction x with
  | nil => exact absurd rfl hx
  | cons p t ih =>
    obtain ⟨c, a⟩ := p
    cases t with
    | nil =>
      cases y with
      | nil => exact absurd rfl hy
      | cons q u => rfl
    | cons q u =>
      have e : ∀ w, reprFactors ((c, a) :: q :: w) = plainRepr c a ++ 'x' :: reprFactors (q :: w) := fun w => rfl
      rw [cons_append, cons_append, e, ← cons_append, ih (by simp), e, append_assoc]
      rfl

theorem factors_ne_nil {g : GDesc} {x : List (Cls × List ℕ)} (h : g.factors = some x) : x ≠ [] := by
  induction g generalizing x with
  | plain c a =>
    simp only [GDesc.factors] at h
    split_ifs at h
    cases h
    simp
  | prod a b iha ihb =>
    rw [GDesc.factors] at h
    cases ha : a.factors with
    | none => simp [ha] at h
    | some u =>
      cases hb : b.factors with
      | none => simp [ha, hb] at h
      | some v =>
        simp only [ha, hb, Option.some.injEq] at h
        subst h
        have := iha ha
        simp [this]
  | embed => cases h

theorem repr_factors {g : GDesc} {x : List (Cls × List ℕ)} (h : g.factors = some x) :
    g.repr = reprFactors x ∧ ∀ p ∈ x, p.1.validArgs p.2 = true := by
  induction g generalizing x with
  | plain c a =>
    simp only [GDesc.factors] at h
    split_ifs at h with hv
    cases h
    exact ⟨rfl, by simpa using hv⟩
  | prod a b iha ihb =>
    rw [GDesc.factors] at h
    cases ha : a.factors with
    | none => simp [ha] at h
    | some u =>
      cases hb : b.factors with
      | none => simp [ha, hb] at h
      | some v =>
        simp only [ha, hb, Option.some.injEq] at h
        subst h
        obtain ⟨e1, v1⟩ := iha ha
        obtain ⟨e2, v2⟩ := ihb hb
        refine ⟨?_, fun p hp => (mem_append.1 hp).elim (v1 p) (v2 p)⟩
        rw [GDesc.repr, e1, e2, reprFactors_append (factors_ne_nil ha) (factors_ne_nil hb)]
  | embed => cases h

/-- C58, partial: for groups made from the classes of the library and `*`, equality means the same classes with the same
arguments multiplied in the same order.  Missing: `Embed` (counterexample below). -/
theorem C58_equality_partial (g h : GDesc) (x y : List (Cls × List ℕ)) (hg : g.factors = some x) (hh : h.factors = some y) :
    g.eq h = true ↔ x = y := by
  obtain ⟨e1, v1⟩ := repr_factors hg
  obtain ⟨e2, v2⟩ := repr_factors hh
  have hx := factors_ne_nil hg
  have hy := factors_ne_nil hh
  rw [GDesc.eq, beq_iff_eq, e1, e2]
  constructor
  · clear hg hh e1 e2
    induction x generalizing y with
    | nil => exact absurd rfl hx
    | cons p t ih =>
      obtain ⟨c, a⟩ := p
      cases y with
      | nil => exact absurd rfl hy
      | cons q u =>
        obtain ⟨c', a'⟩ := q
        have hs : ∀ (c : Cls) (a : List ℕ) t, ∃ s, reprFactors ((c, a) :: t) = plainRepr c a ++ s ∧ ((t = [] ∧ s = []) ∨ (t ≠ [] ∧ s = 'x' :: reprFactors t)) := by
          intro c a t
          cases t with
          | nil => exact ⟨[], by simp [reprFactors], .inl ⟨rfl, rfl⟩⟩
          | cons r w => exact ⟨_, rfl, .inr ⟨by simp, rfl⟩⟩
        obtain ⟨s, es, hs1⟩ := hs c a t
        obtain ⟨s', es', hs1'⟩ := hs c' a' u
        intro h
        rw [es, es'] at h
        have hv := v1 (c, a) (by simp)
        have hv' := v2 (c', a') (by simp)
        have h5 : s = [] ∨ ∃ t, s = 'x' :: t := by
          rcases hs1 with h | h
          · exact .inl h.2
          · exact .inr ⟨_, h.2⟩
        have h5' : s' = [] ∨ ∃ t, s' = 'x' :: t := by
          rcases hs1' with h | h
          · exact .inl h.2
          · exact .inr ⟨_, h.2⟩
        obtain ⟨hc, ha, hs⟩ := plain_prefix hv hv' h5 h5' h
        subst hc ha hs
        rcases hs1 with ⟨rfl, rfl⟩ | ⟨ht, rfl⟩
        · rcases hs1' with ⟨rfl, _⟩ | ⟨_, hc⟩
          · rfl
          · cases hc
        · rcases hs1' with ⟨_, hc⟩ | ⟨hu, hc⟩
          · cases hc
          · rw [ih u (fun p hp => v1 p (by simp [hp])) (fun p hp => v2 p (by simp [hp])) ht hu (by simpa using hc)]
  · rintro rfl
    rfl

example : (GDesc.prod (.plain .SO [3]) (.plain .ZksZnxZn [4, 7])).factors = some [(.SO, [3]), (.ZksZnxZn, [4, 7])] := by decide

theorem mul_add_inj_iff {a b d e n : ℕ} (hb : b < n) (he : e < n) : a * n + b = d * n + e ↔ a = d ∧ b = e := by
  constructor
  · intro h
    have h1 : a = d := by
      have h2 := congrArg (· / n) h
      beta_reduce at h2
      rwa [Nat.mul_comm a, Nat.mul_comm d, Nat.mul_add_div (by omega), Nat.mul_add_div (by omega), Nat.div_eq_of_lt hb, Nat.div_eq_of_lt he,
        add_zero, add_zero] at h2
    subst h1
    exact ⟨rfl, by omega⟩
  · rintro ⟨rfl, rfl⟩; rfl

theorem kronsum_zero_right {A : DMat ℝ} {m n : ℕ} (hA : A.IsSq m) (hn : n = 1) : A.kronsum (DMat.zero n n) = A := by
  subst hn
  refine DMat.ext (by simp) (by simp) ?_
  intro x y hx hy
  simp only [DMat.kronsum_rows, DMat.kronsum_cols, DMat.zero_rows, mul_one] at hx hy
  have := DMat.kronsum_e (A := A) (B := DMat.zero 1 1) (m := m) (n := 1) hA ⟨rfl, rfl⟩ (a := x) (b := 0) (c := y) (d := 0)
    (by rw [← hA.1]; exact hx) (by simp) (by rw [← hA.2]; exact hy) (by simp)
  simpa [DMat.zero_e] using this

theorem kronsum_assoc {A B C : DMat ℝ} {m n p : ℕ} (hA : A.IsSq m) (hB : B.IsSq n) (hC : C.IsSq p) :
    (A.kronsum B).kronsum C = A.kronsum (B.kronsum C) := by
  have hAB := DMat.kronsum_isSq hA hB
  have hBC := DMat.kronsum_isSq hB hC
  refine DMat.kron_ext (m := m * n) (n := p) (m' := m * n) (n' := p) (DMat.kronsum_isSq hAB hC).1 (DMat.kronsum_isSq hAB hC).2
    (by rw [(DMat.kronsum_isSq hA hBC).1]; ring) (by rw [(DMat.kronsum_isSq hA hBC).2]; ring) ?_
  intro i c j f hi hc hj hf
  rw [DMat.kronsum_e hAB hC hi hc hj hf]
  obtain ⟨a, b, ha, hb, rfl⟩ := exists_mul_add hi
  obtain ⟨d, e, hd, he, rfl⟩ := exists_mul_add hj
  rw [DMat.kronsum_e hA hB ha hb hd he]
  have e1 : (a * n + b) * p + c = a * (n * p) + (b * p + c) := by ring
  have e2 : (d * n + e) * p + f = d * (n * p) + (e * p + f) := by ring
  rw [e1, e2, DMat.kronsum_e hA hBC ha (mul_add_lt hb hc) hd (mul_add_lt he hf), DMat.kronsum_e hB hC hb hc he hf]
  simp only [mul_add_inj_iff hb he, mul_add_inj_iff hc hf]
  by_cases h1 : a = d <;> by_cases h2 : b = e <;> by_cases h3 : c = f <;> simp [h1, h2, h3, add_assoc]

/-- The order of multiplication does not matter: the two products with the same factors have the same generators. -/
theorem C58_product_assoc (d1 d2 d3 : ℕ) (G1 G2 G3 A B C D : Grp) (hA : directProductGroup d1 d2 G1 G2 = .ok A)
    (hB : directProductGroup (d1 * d2) d3 A G3 = .ok B) (hC : directProductGroup d2 d3 G2 G3 = .ok C)
    (hD : directProductGroup d1 (d2 * d3) G1 C = .ok D) (h1 : ∀ X ∈ G1.lie ++ G1.disc, X.sem.IsSq d1)
    (h2 : ∀ X ∈ G2.lie ++ G2.disc, X.sem.IsSq d2) (h3 : ∀ X ∈ G3.lie ++ G3.disc, X.sem.IsSq d3) :
    B.lie.map LinOp.sem = D.lie.map LinOp.sem ∧ B.disc.map LinOp.sem = D.disc.map LinOp.sem := by
  rw [directProductGroup, groupInit_eq, if_neg (by simp)] at hA hB hC hD
  cases hA
  cases hB
  cases hC
  cases hD
  have hz : ∀ d, (LinOp.smul (R := ℝ) 0 (.eye d)).sem = DMat.zero d d := fun d => DMat.ext rfl rfl (by
    intro i j _ _
    simp [LinOp.sem, DMat.smul, DMat.of, DMat.zero])
  have hzq : ∀ d, (DMat.zero (R := ℝ) d d).IsSq d := fun d => ⟨rfl, rfl⟩
  have hzz : ∀ m n, (DMat.zero (R := ℝ) m m).kronsum (DMat.zero n n) = DMat.zero (m * n) (m * n) := fun m n => by
    refine DMat.kron_ext (m := m) (n := n) (m' := m) (n' := n) rfl rfl rfl rfl ?_
    intro a b c d ha hb hc hd
    rw [DMat.kronsum_e (hzq m) (hzq n) ha hb hc hd]
    simp [DMat.zero_e]
  have hks : ∀ (X Y : LinOp ℝ) m n, X.sem.IsSq m → Y.sem.IsSq n → (LinOp.kronsum [X, Y]).sem = X.sem.kronsum Y.sem := fun X Y m n hX hY => by
    simp only [LinOp.sem, LinOp.semL, DMat.kronsumL]
    rw [kronsum_zero_right hY rfl]
  have hk : ∀ (X Y : LinOp ℝ), (LinOp.kron [X, Y]).sem = X.sem.kron Y.sem := fun X Y => by
    simp only [LinOp.sem, LinOp.semL, DMat.kronL]
    rw [DMat.kron_one]
  have hzs : ∀ d, (LinOp.smul (R := ℝ) 0 (.eye d)).sem.IsSq d := fun d => ⟨rfl, rfl⟩
  have hkq : ∀ (X Y : LinOp ℝ) m n, X.sem.IsSq m → Y.sem.IsSq n → (LinOp.kronsum [X, Y]).sem.IsSq (m * n) := fun X Y m n hX hY => by
    rw [hks X Y m n hX hY]
    exact DMat.kronsum_isSq hX hY
  simp only [Option.getD_some, map_append, List.map_map, append_assoc]
  constructor
  · congr 1
    · refine map_congr_left fun X hX => ?_
      have hX := h1 X (by simp [hX])
      simp only [Function.comp]
      rw [hks _ _ (d1 * d2) d3 (hkq _ _ _ _ hX (hzs _)) (hzs _), hks _ _ d1 d2 hX (hzs _), hks _ _ d1 (d2 * d3) hX (hzs _), hz, hz, hz,
        kronsum_assoc hX (hzq _) (hzq _), hzz]
    · congr 1
      · refine map_congr_left fun X hX => ?_
        have hX := h2 X (by simp [hX])
        simp only [Function.comp]
        rw [hks _ _ (d1 * d2) d3 (hkq _ _ _ _ (hzs _) hX) (hzs _), hks _ _ d1 d2 (hzs _) hX, hks _ _ d1 (d2 * d3) (hzs _) (hkq _ _ _ _ hX (hzs _)),
          hks _ _ d2 d3 hX (hzs _), hz, hz, kronsum_assoc (hzq _) hX (hzq _)]
      · refine map_congr_left fun X hX => ?_
        have hX := h3 X (by simp [hX])
        simp only [Function.comp]
        rw [hks _ _ (d1 * d2) d3 (hzs _) hX, hks _ _ d1 (d2 * d3) (hzs _) (hkq _ _ _ _ (hzs _) hX), hks _ _ d2 d3 (hzs _) hX, hz, hz, hz,
          ← kronsum_assoc (hzq _) (hzq _) hX, hzz]
  · have ho : ∀ d, (LinOp.eye (R := ℝ) d).sem = DMat.one d := fun d => rfl
    congr 1
    · refine map_congr_left fun X hX => ?_
      simp only [Function.comp, hk, ho, DMat.kron_assoc, DMat.kron_one_one]
    · congr 1
      · refine map_congr_left fun X hX => ?_
        simp only [Function.comp, hk, ho, DMat.kron_assoc]
      · refine map_congr_left fun X hX => ?_
        simp only [Function.comp, hk, ho, ← DMat.kron_assoc, DMat.kron_one_one]

/-- C58 is false for `Embed`: `Embed(SO(2),3,slice(0,2))` and `Embed(SO(2),3,slice(1,3))` are equal as groups, but rotate
different planes. -/
theorem C58_embed_counterexample : ∃ (G0 G1 G2 : Grp) (a : Arr3 ℝ),
    soLie 2 = .ok a ∧ groupInit none (some ((a.mats 2).map ofMatrix)) none none none = .ok G0 ∧
    embedGroup 2 G0 3 [0, 1] = .ok G1 ∧ embedGroup 2 G0 3 [1, 2] = .ok G2 ∧
    (GDesc.embed (.plain .SO [2]) 3 [0, 1]).eq (.embed (.plain .SO [2]) 3 [1, 2]) = true ∧
    G1.lie.map (denseGen 3) ≠ G2.lie.map (denseGen 3) := by
  obtain ⟨a, ha, hlen, -, hspan⟩ := C50_so_generators 2
  obtain ⟨A, hA⟩ : ∃ A, a.mats 2 = [A] := by
    rw [← length_eq_one_iff]
    exact hlen
  have hA01 : A 0 1 ≠ 0 := by
    intro h0
    have := (hspan !![0, 1; -1, 0]).2 (by ext i j; fin_cases i <;> fin_cases j <;> simp)
    rw [hA] at this
    simp only [mem_singleton, Set.setOf_eq_eq_singleton, Submodule.mem_span_singleton] at this
    obtain ⟨c, hc⟩ := this
    have := congrFun (congrFun hc 0) 1
    simp [h0] at this
  have hemb : ∀ (G0 : Grp) idx, idx.length = 2 → G0.lie = [ofMatrix A] → ∃ G, embedGroup 2 G0 3 idx = .ok G ∧
      G.lie = [.lazy (embedMat 3 idx (fun _ _ => 0) (ofMatrix A).sem)] := by
    intro G0 idx hl hlie
    rw [embedGroup, if_neg (by simpa using hl)]
    refine ⟨_, (groupInit_eq _ _ _).trans (if_neg (by simp)), ?_⟩
    simp [hlie]
  obtain ⟨G0, hG0, hlie⟩ : ∃ G0, groupInit none (some ((a.mats 2).map ofMatrix)) none none none = .ok G0 ∧ G0.lie = [ofMatrix A] := by
    rw [groupInit_eq, hA, if_neg (by simp [groupDim])]
    exact ⟨_, rfl, rfl⟩
  obtain ⟨G1, hG1, hl1⟩ := hemb G0 [0, 1] rfl hlie
  obtain ⟨G2, hG2, hl2⟩ := hemb G0 [1, 2] rfl hlie
  refine ⟨G0, G1, G2, a, ha, hG0, hG1, hG2, by decide +kernel, ?_⟩
  rw [hl1, hl2]
  simp only [map_cons, map_nil, ne_eq, cons.injEq, and_true]
  intro h
  have := congrFun (congrFun h 0) 1
  simp [denseGen, LinOp.sem, embedMat, DMat.of, ofMatrix] at this
  exact hA01 this

/-- A case of `C58_product_assoc`: the product of three cyclic groups, bracketed in both ways. -/
example : ∃ G A B C D : Grp, shiftGroup 3 = .ok G ∧ directProductGroup 3 3 G G = .ok A ∧ directProductGroup (3 * 3) 3 A G = .ok B ∧
    directProductGroup 3 3 G G = .ok C ∧ directProductGroup 3 (3 * 3) G C = .ok D ∧ (∀ X ∈ G.lie ++ G.disc, X.sem.IsSq 3) ∧ B.disc.length = 3 := by
  have h : ∀ (d1 d2 : ℕ) (G1 G2 : Grp), ∃ A, directProductGroup d1 d2 G1 G2 = .ok A ∧ A.disc.length = G1.disc.length + G2.disc.length := fun d1 d2 G1 G2 => by
    rw [directProductGroup, groupInit_eq, if_neg (by simp)]
    exact ⟨_, rfl, by simp⟩
  have hG : ∃ G, shiftGroup 3 = .ok G ∧ G.lie = [] ∧ G.disc = [.shift 3 1] := by
    rw [shiftGroup, groupInit_eq, if_neg (by simp [groupDim])]
    exact ⟨_, rfl, rfl, rfl⟩
  obtain ⟨G, hG, hl, hd⟩ := hG
  obtain ⟨A, hA, hA'⟩ := h 3 3 G G
  obtain ⟨B, hB, hB'⟩ := h (3 * 3) 3 A G
  obtain ⟨D, hD, -⟩ := h 3 (3 * 3) G A
  refine ⟨G, A, B, A, D, hG, hA, hB, hA, hD, ?_, by rw [hB', hA', hd]; rfl⟩
  intro X hX
  rw [hl, hd, nil_append, mem_singleton] at hX
  subst hX
  exact ⟨rfl, rfl⟩

end Verif
