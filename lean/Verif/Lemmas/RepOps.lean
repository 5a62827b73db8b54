import Verif.Lemmas.RepDual

/-! The operators `+`, `*`, `**`, `>>`, `<<` and integer shorthands, for summands in a closed class. -/
namespace Verif
open List

variable {W : World} {S : Key → Prop} {N : ℕ}

theorem Rep.WF.concrete {r : Rep} (h : r.WF W) : r.concrete = true := by
  match r, h with
  | .key .scalar, _ => rfl
  | .key (.fac (.atom a)), h => exact h
  | .key (.fac (.prod p)), _ => rfl
  | .key (.dprod d), _ => rfl
  | .sum s, _ => rfl

/-- `a+b`. -/
theorem Rep.add_spec {a b : Rep} (ha : a.WF W) (hb : b.WF W) (hst : StrictTotalOn (Key.lt W) (a.keys W ++ b.keys W)) :
    ∃ r, Rep.add W a b = .ok r ∧ r.WF W ∧ (∀ k, k ∈ r.keys W ↔ k ∈ a.keys W ∨ k ∈ b.keys W) ∧
      r.size W = a.size W + b.size W ∧
      ∀ (R : Type) [CommRing R] (I : Interp R), I.Sized W → r.mat I = DMat.bdiag [a.mat I, b.mat I] := by
  obtain ⟨s, s1, s2, s3, s4, -, s6⟩ := mkSum_spec_none (W := W) (ops := [a, b]) (by simp)
    (by intro r hr; simp at hr; rcases hr with rfl | rfl <;> assumption) (by simpa using hst)
  refine ⟨.sum s, ?_, s2, ?_, ?_, ?_⟩
  · unfold Rep.add; rw [ha.concrete, hb.concrete, s1]; rfl
  · intro k
    show k ∈ s.c.keys ↔ _
    rw [s4]; simp
  · show s.size W = _
    rw [s3]; simp
  · intro R _ I hI
    show (s.rho I).sem = _
    rw [s6 R I hI]; rfl

/-- `a*b`. -/
theorem Rep.mul_spec (hS : KeyClass W S N) {a b : Rep} (ha : a.WF W) (hb : b.WF W) (hka : ∀ k ∈ a.keys W, S k)
    (hkb : ∀ k ∈ b.keys W, S k) (hN : a.size W * b.size W ≤ N) :
    ∃ r, Rep.mul W a b = .ok r ∧ r.WF W ∧ (∀ k ∈ r.keys W, S k) ∧ r.size W = a.size W * b.size W ∧
      ∀ (R : Type) [CommRing R] (I : Interp R), I.Sized W → r.mat I = DMat.kron (a.mat I) (b.mat I) := by
  have hdist : ∀ {a b : Rep}, a.WF W → b.WF W → (∀ k ∈ a.keys W, S k) → (∀ k ∈ b.keys W, S k) → a.size W * b.size W ≤ N →
      ∃ s, distribute W [a, b] = .ok s ∧ s.WF W ∧ (∀ k ∈ s.c.keys, S k) ∧ s.size W = a.size W * b.size W ∧
      ∀ (R : Type) [CommRing R] (I : Interp R), I.Sized W → (s.rho I).sem = DMat.kron (a.mat I) (b.mat I) := by
    intro a b ha hb hka hkb hN
    obtain ⟨s, s1, s2, s3, s4, s5⟩ := distribute_spec hS (ops := [a, b]) (by simp)
      (by intro r hr; simp at hr; rcases hr with rfl | rfl <;> assumption)
      (by intro r hr; simp at hr; rcases hr with rfl | rfl <;> assumption) (by simpa using hN)
    refine ⟨s, s1, s2, s3, by simpa using s4, ?_⟩
    intro R _ I hI
    rw [s5 R I hI]; simp [DMat.kronL, DMat.kron_one]
  by_cases has : a = .key .scalar
  · subst has
    refine ⟨b, by simp [Rep.mul], hb, hkb, by simp [Rep.size, Key.size], ?_⟩
    intro R _ I _
    show b.mat I = DMat.kron (DMat.one 1) (b.mat I)
    rw [DMat.one_kron]
  match a, b, ha, hb, hka, hkb, hN, has with
  | .sum s, b, ha, hb, hka, hkb, hN, _ =>
    obtain ⟨t, t1, t2, t3, t4, t5⟩ := hdist ha hb hka hkb hN
    refine ⟨.sum t, ?_, t2, t3, t4, t5⟩
    simp only [Rep.mul]
    rw [if_pos hb.concrete, t1]; rfl
  | .key k, .sum s, ha, hb, hka, hkb, hN, has =>
    obtain ⟨t, t1, t2, t3, t4, t5⟩ := hdist ha hb hka hkb hN
    refine ⟨.sum t, ?_, t2, t3, t4, t5⟩
    have : Rep.mul W (.key k) (.sum s) = if (Rep.key k).concrete then (do
        let r ← distribute W [.key k, .sum s]
        .ok (.sum r)) else mkDeferredProd [.key k, .sum s] := by
      cases k with
      | scalar => exact absurd rfl has
      | fac f => rfl
      | dprod d => rfl
    rw [this, if_pos ha.concrete, t1]; rfl
  | .key k, .key l, ha, hb, hka, hkb, hN, has =>
    by_cases hl : l = .scalar
    · subst hl
      refine ⟨.key k, ?_, ha, hka, by simp [Rep.size, Key.size], ?_⟩
      · cases k with
        | scalar => exact absurd rfl has
        | fac f => rfl
        | dprod d => rfl
      · intro R _ I _
        show _ = DMat.kron _ (DMat.one 1)
        rw [DMat.kron_one]
    obtain ⟨r, r1, r2, r3, r4, r5⟩ := hS.mul k l ha hb (hka _ (by simp [Rep.keys])) (hkb _ (by simp [Rep.keys])) hN
    refine ⟨.key r, ?_, r2, ?_, r4, r5⟩
    · have hc1 : k.concrete = true := ha.concrete
      have hc2 : l.concrete = true := hb.concrete
      have : Rep.mul W (.key k) (.key l) = if k.concrete && l.concrete then (do
          let r ← Key.mul W k l
          .ok (.key r)) else mkDeferredProd [.key k, .key l] := by
        cases k with
        | scalar => exact absurd rfl has
        | fac f => cases l with
          | scalar => exact absurd rfl hl
          | fac f => rfl
          | dprod d => rfl
        | dprod d => cases l with
          | scalar => exact absurd rfl hl
          | fac f => rfl
          | dprod d => rfl
      rw [this, hc1, hc2, r1]; rfl
    · intro x hx; simp only [Rep.keys, mem_singleton] at hx; rw [hx]; exact r3

theorem Rep.size_pos (hS : KeyClass W S N) {r : Rep} (h : r.WF W) (hk : ∀ k ∈ r.keys W, S k) : 0 < r.size W := by
  match r, h, hk with
  | .key k, h, hk =>
    have := hS.pos _ (hk (k.base W) (by simp [Rep.keys]))
    rwa [Key.size_base] at this
  | .sum s, h, hk =>
    have hw : s.WF W := h
    obtain ⟨kc, t, hc⟩ := exists_cons_of_ne_nil hw.cnt.ne
    have h1 := hS.pos kc.1 (hk kc.1 (by simp [Rep.keys, hc, Counter.keys]))
    have h2 := hw.cnt.pos kc (by simp [hc])
    show 0 < s.size W
    simp only [SRep.size, Counter.sumSize, hc, map_cons, sum_cons]
    have := Nat.mul_pos h1 (Nat.pos_of_ne_zero h2)
    omega

/-- `rep**n`. -/
theorem Rep.pow_spec (hS : KeyClass W S N) (hsc : S .scalar) {a : Rep} (ha : a.WF W) (hka : ∀ k ∈ a.keys W, S k) (n : ℕ)
    (hN : a.size W ^ n ≤ N) :
    ∃ r, Rep.pow W a n = .ok r ∧ r.WF W ∧ (∀ k ∈ r.keys W, S k) ∧ r.size W = a.size W ^ n ∧
      ∀ (R : Type) [CommRing R] (I : Interp R), I.Sized W → r.mat I = DMat.kronL (replicate n (a.mat I)) := by
  have hp := Rep.size_pos hS ha hka
  have gen : ∀ (n : ℕ) (b : Rep), b.WF W → (∀ k ∈ b.keys W, S k) → b.size W * a.size W ^ n ≤ N →
      ∃ r, (replicate n a).foldlM (Rep.mul W) b = .ok r ∧ r.WF W ∧ (∀ k ∈ r.keys W, S k) ∧ r.size W = b.size W * a.size W ^ n ∧
      ∀ (R : Type) [CommRing R] (I : Interp R), I.Sized W → r.mat I = DMat.kron (b.mat I) (DMat.kronL (replicate n (a.mat I))) := by
    intro n
    induction n with
    | zero =>
      intro b hb hkb _
      refine ⟨b, rfl, hb, hkb, by simp, ?_⟩
      intro R _ I _; simp [DMat.kronL, DMat.kron_one]
    | succ n ih =>
      intro b hb hkb hN
      have hab : b.size W * a.size W ≤ N := by
        refine le_trans ?_ hN
        apply Nat.mul_le_mul_left
        exact Nat.le_self_pow (by omega) _
      obtain ⟨c, c1, c2, c3, c4, c5⟩ := Rep.mul_spec hS hb ha hkb hka hab
      obtain ⟨r, r1, r2, r3, r4, r5⟩ := ih c c2 c3 (by rw [c4, mul_assoc, ← pow_succ']; exact hN)
      refine ⟨r, ?_, r2, r3, ?_, ?_⟩
      · rw [replicate_succ, foldlM_cons, c1]; exact r1
      · rw [r4, c4, mul_assoc, ← pow_succ']
      · intro R _ I hI
        rw [r5 R I hI, c5 R I hI, replicate_succ, DMat.kronL, DMat.kron_assoc]
  obtain ⟨r, r1, r2, r3, r4, r5⟩ := gen n (.key .scalar) trivial
    (by intro k hk; simp only [Rep.keys, mem_singleton] at hk; rw [hk]; exact hsc) (by simpa [Rep.size, Key.size] using hN)
  refine ⟨r, r1, r2, r3, by simpa [Rep.size, Key.size] using r4, ?_⟩
  intro R _ I hI
  rw [r5 R I hI]
  show DMat.kron (DMat.one 1) _ = _
  rw [DMat.one_kron]

/-- `rep+n`, `n+rep` for `n ≥ 0`. -/
theorem Rep.addInt_spec (hS : KeyClass W S N) (hsc : S .scalar) {a : Rep} (ha : a.WF W) (hka : ∀ k ∈ a.keys W, S k) (n : ℕ)
    (left : Bool) :
    ∃ r, Rep.addInt W a n left = .ok r ∧ r.WF W ∧ (∀ k ∈ r.keys W, S k) ∧ r.size W = a.size W + n ∧
      ∀ (R : Type) [CommRing R] (I : Interp R), I.Sized W →
        r.mat I = if left then DMat.bdiag [DMat.one n, a.mat I] else DMat.bdiag [a.mat I, DMat.one n] := by
  unfold Rep.addInt
  by_cases h0 : n = 0
  · subst h0
    refine ⟨a, by simp, ha, hka, by simp, ?_⟩
    intro R _ I _
    have : (DMat.one 0 : DMat R) = DMat.zero 0 0 := DMat.ext rfl rfl fun i j hi _ => by simp at hi
    rw [this]
    cases left <;> simp [DMat.bdiag, DMat.bdiag2_zero, DMat.zero_bdiag2]
  · have e0 : (n : ℤ) ≠ 0 := by exact_mod_cast h0
    rw [if_neg e0]
    have hsk : ∀ k ∈ (Rep.key .scalar).keys W, S k := by
      intro k hk; simp only [Rep.keys, mem_singleton] at hk; rw [hk]; exact hsc
    obtain ⟨s, s1, s2, s3, s4, s5⟩ := Rep.mulInt_spec (W := W) (r := .key .scalar) trivial (hS.st _ hsk) (Nat.pos_of_ne_zero h0)
    have hks : ∀ k ∈ s.keys W, S k := fun k hk => hsk k ((s4 k).1 hk)
    have hm : ∀ (R : Type) [CommRing R] (I : Interp R), I.Sized W → s.mat I = DMat.one n := by
      intro R _ I hI
      rw [s5 R I hI]
      show DMat.bdiag (replicate n (DMat.one 1)) = _
      rw [DMat.bdiag_replicate, DMat.kron_one_one, mul_one]
    have hs3 : s.size W = n := by rw [s3]; simp [Rep.size, Key.size]
    rw [s1]
    cases left with
    | true =>
      obtain ⟨r, r1, r2, r3, r4, r5⟩ := Rep.add_spec s2 ha (hS.st _ (by
        intro k hk; rcases mem_append.1 hk with hk | hk; exacts [hks k hk, hka k hk]))
      refine ⟨r, r1, r2, ?_, by omega, ?_⟩
      · intro k hk; rcases (r3 k).1 hk with hk | hk; exacts [hks k hk, hka k hk]
      · intro R _ I hI; rw [r5 R I hI, hm R I hI]; rfl
    | false =>
      obtain ⟨r, r1, r2, r3, r4, r5⟩ := Rep.add_spec ha s2 (hS.st _ (by
        intro k hk; rcases mem_append.1 hk with hk | hk; exacts [hka k hk, hks k hk]))
      refine ⟨r, r1, r2, ?_, by omega, ?_⟩
      · intro k hk; rcases (r3 k).1 hk with hk | hk; exacts [hka k hk, hks k hk]
      · intro R _ I hI; rw [r5 R I hI, hm R I hI]; rfl

end Verif
