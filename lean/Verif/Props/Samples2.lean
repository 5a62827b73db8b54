import Verif.Lemmas.Samples2
import Verif.Props.Samples
import Verif.Props.GroupObjects

/-!
# C119 (continued): special unitary, dihedral and symmetric groups

The orders in which the discrete generators are multiplied come from `jax.random.PRNGKey` of a seed below 100 (groups.py:77), so for a
given group there are at most 100 of them; `seed` is the unknown function from seeds to orders.
-/
namespace Verif
open Matrix List NormedSpace

/-- **C119.** Every unitary matrix of determinant one can be sampled from `SU(n)`, and nothing else. -/
theorem C119_su (n : ℕ) (hn : 2 ≤ n) : ∃ re im : Arr3 ℝ, suLie n = .ok (re, im) ∧
    ∀ h, SampledBy none (cplxMats re im n) [] h ↔ hᴴ * h = 1 ∧ h.det = 1 := by
  obtain ⟨re, im, ha, -, -, hs⟩ := C53_su_generators n hn
  refine ⟨re, im, ha, fun h => ?_⟩
  rw [sampledBy_lie (noScale _)]
  constructor
  · rintro ⟨A, hA, rfl⟩
    obtain ⟨re', im', ha', hg⟩ := C115_su n hn
    rw [ha] at ha'
    cases ha'
    exact (hg _).1 (.exp hA)
  · rintro ⟨h1, h2⟩
    obtain ⟨A, hA, rfl⟩ := exp_specialUnitary h1 h2
    exact ⟨A, (hs A).2 hA, rfl⟩

theorem canSampleIn_iff {G : Grp} {d : ℕ} (hl : G.lie = []) (o : List (List ℕ)) (h : Matrix (Fin d) (Fin d) ℝ) :
    G.CanSampleIn d none o h ↔ ∃ (N : ℕ) (w : Draws), w.Meets N 0 (G.disc.map (denseGen d)).length ∧ w.orders = o ∧
      h ∈ samplesOf none [] (G.disc.map (denseGen d)) w := by
  simp only [Grp.CanSampleIn, Grp.samples, hl, length_map, map_nil, length_nil]

/-- **C119.** A finite group: if the `m`-th powers of all `M` discrete generators are the identity, at most `100·m^(3M)` elements can be
sampled, whatever the random numbers. -/
theorem C119_count (G : Grp) (d m : ℕ) (hm0 : 0 < m) (hl : G.lie = []) (hm : ∀ h ∈ G.disc.map (denseGen d), h ^ m = 1) (seed : ℕ → List (List ℕ)) :
    ∃ S : Finset (Matrix (Fin d) (Fin d) ℝ), S.card ≤ 100 * m ^ (3 * G.disc.length) ∧
      ∀ s < 100, ∀ h, G.CanSampleIn d none (seed s) h → h ∈ S := by
  have hu : ∀ h ∈ G.disc.map (denseGen d), IsUnit h.det := fun h hh => by
    have := congrArg det (hm h hh)
    rw [det_pow, det_one] at this
    exact IsUnit.of_pow_eq_one this hm0.ne'
  obtain ⟨S, hS, h⟩ := sampled_finite hm0 hu hm seed
  rw [length_map] at hS
  refine ⟨S, hS, fun s hs g hg => ?_⟩
  obtain ⟨N, w, hw, ho, hh⟩ := (canSampleIn_iff hl _ _).1 hg
  exact h s hs N w hw ho g hh

/-- **C119, limits.** From `S(n)` with `n ≥ 22` some permutations are never sampled, whatever the random numbers. -/
theorem C119_s (n : ℕ) (hn : 22 ≤ n) : ∃ G, symGroup n = .ok G ∧ ∀ seed : ℕ → List (List ℕ), ∃ σ : Equiv.Perm (Fin n),
    Generated [] (G.disc.map (denseGen n)) (σ.permMatrix ℝ) ∧ ∀ s < 100, ¬ G.CanSampleIn n none (seed s) (σ.permMatrix ℝ) := by
  classical
  obtain ⟨G, hG, -, hl, ⟨hlen, hswap⟩, hgen⟩ := C54_symmetric n (by omega)
  refine ⟨G, hG, fun seed => ?_⟩
  have hm : ∀ h ∈ G.disc.map (denseGen n), h ^ 2 = 1 := by
    intro h hh
    obtain ⟨g, hg, rfl⟩ := mem_map.1 hh
    obtain ⟨i, hi, rfl⟩ := getElem_of_mem hg
    rw [hswap i (by omega), sq]
    show pm _ * pm _ = _
    rw [pm_mul, Equiv.swap_mul_self, pm_one]
  obtain ⟨S, hS, h⟩ := C119_count G n 2 (by norm_num) hl hm seed
  rw [hlen] at hS
  by_contra hc
  push Not at hc
  have hsub : (Finset.univ : Finset (Equiv.Perm (Fin n))).image (fun σ => σ.permMatrix ℝ) ⊆ S := by
    intro x hx
    obtain ⟨σ, -, rfl⟩ := Finset.mem_image.1 hx
    obtain ⟨s, hs, h'⟩ := hc σ ((hgen _).2 ⟨σ, rfl⟩)
    exact h s hs _ h'
  have hinj : Function.Injective fun σ : Equiv.Perm (Fin n) => σ.permMatrix ℝ := by
    intro σ τ e
    ext i
    have := congrFun (congrFun e i) (τ i)
    simp only [Equiv.Perm.permMatrix, PEquiv.toMatrix_apply, Equiv.toPEquiv_apply, Option.mem_def, Option.some.injEq] at this
    by_contra hne
    simp [Fin.ext_iff, hne] at this
  have := Finset.card_le_card hsub
  rw [Finset.card_image_of_injective _ hinj, Finset.card_univ, Fintype.card_perm, Fintype.card_fin] at this
  have := factorial_lt n hn
  omega

/-- the two orders of two generators -/
theorem orders_two {o : List ℕ} (ho : o.Perm (range 2)) : o = [0, 1] ∨ o = [1, 0] := by
  have h2 : o.length = 2 := by rw [ho.length_eq, length_range]
  have hn : o.Nodup := ho.nodup_iff.2 nodup_range
  match o, h2 with
  | [x, y], _ =>
    have hx := mem_range.1 (ho.mem_iff.1 (by simp : x ∈ [x, y]))
    have hy := mem_range.1 (ho.mem_iff.1 (by simp : y ∈ [x, y]))
    have hne : x ≠ y := by simpa using hn
    interval_cases x <;> interval_cases y <;> simp_all

section dihedral
variable {R F : Matrix (Fin 2) (Fin 2) ℝ}

theorem flip_zpow (hF : F * F = 1) (y : ℤ) : F ^ y = 1 ∨ F ^ y = F := by
  have hu : IsUnit F.det := by
    have := congrArg det hF
    rw [det_mul, det_one] at this
    exact IsUnit.of_mul_eq_one _ this
  have h2 : F ^ (2 : ℤ) = 1 := by
    have : F ^ (2 : ℤ) = F ^ (2 : ℕ) := zpow_natCast F 2
    rw [this, sq, hF]
  rcases Int.even_or_odd' y with ⟨c, rfl | rfl⟩
  · left; rw [Matrix.zpow_mul F hu, h2, Matrix.one_zpow]
  · right; rw [Matrix.zpow_add hu, Matrix.zpow_mul F hu, h2, Matrix.one_zpow, Matrix.one_mul, zpow_one]

theorem flip_rot (hF : F * F = 1) (hu : IsUnit R.det) (hRF : F * R * F = R⁻¹) (a : ℤ) : F * R ^ a = R ^ (-a) * F := by
  have hi : F⁻¹ = F := inv_eq_left_inv hF
  have hF' : IsUnit F := ⟨⟨F, F, hF, hF⟩, rfl⟩
  have h1 : ∀ n : ℕ, F * R ^ n * F = R⁻¹ ^ n := by
    intro n
    induction n with
    | zero => simp [hF]
    | succ n ih =>
      calc F * R ^ (n + 1) * F = (F * R ^ n * F) * (F * R * F) := by
            simp only [Matrix.mul_assoc]
            rw [← Matrix.mul_assoc F F, hF, Matrix.one_mul, pow_succ]; simp only [Matrix.mul_assoc]
        _ = R⁻¹ ^ (n + 1) := by rw [ih, hRF, ← pow_succ]
  have h2 : ∀ n : ℕ, F * R⁻¹ ^ n * F = R ^ n := by
    intro n
    rw [← h1]
    calc F * (F * R ^ n * F) * F = (F * F) * R ^ n * (F * F) := by simp only [Matrix.mul_assoc]
      _ = R ^ n := by rw [hF, Matrix.one_mul, Matrix.mul_one]
  have h3 : F * R ^ a * F = R ^ (-a) := by
    rcases Int.eq_nat_or_neg a with ⟨n, rfl | rfl⟩
    · rw [zpow_natCast, h1, Matrix.zpow_neg_natCast, Matrix.inv_pow']
    · rw [neg_neg, Matrix.zpow_neg_natCast, zpow_natCast, ← Matrix.inv_pow', h2]
  rw [← h3, Matrix.mul_assoc, hF, Matrix.mul_one]

/-- one round -/
theorem dihedral_round (hF : F * F = 1) (hu : IsUnit R.det) (hRF : F * R * F = R⁻¹) {o : List ℕ} (ho : o.Perm (range 2)) (e a x y : ℤ) :
    ∃ e' x' : ℤ, (e' = e + a ∨ e' = e - a) ∧ (R ^ e * F ^ x) * (if o = [0, 1] then R ^ a * F ^ y else F ^ y * R ^ a) = R ^ e' * F ^ x' := by
  have hFu : IsUnit F.det := by
    have := congrArg det hF
    rw [det_mul, det_one] at this
    exact IsUnit.of_mul_eq_one _ this
  have key : ∀ u v : ℤ, ∃ v', (v' = v ∨ v' = -v) ∧ F ^ u * R ^ v = R ^ v' * F ^ u := by
    intro u v
    rcases flip_zpow hF u with h | h
    · exact ⟨v, .inl rfl, by rw [h, Matrix.one_mul, Matrix.mul_one]⟩
    · exact ⟨-v, .inr rfl, by rw [h, flip_rot hF hu hRF]⟩
  split_ifs with h
  · obtain ⟨v, hv, e1⟩ := key x a
    refine ⟨e + v, x + y, by rcases hv with rfl | rfl; exacts [.inl rfl, .inr (by ring)], ?_⟩
    calc R ^ e * F ^ x * (R ^ a * F ^ y) = R ^ e * (F ^ x * R ^ a) * F ^ y := by simp only [Matrix.mul_assoc]
      _ = _ := by rw [e1, Matrix.zpow_add hu, Matrix.zpow_add hFu]; simp only [Matrix.mul_assoc]
  · obtain ⟨v, hv, e1⟩ := key (x + y) a
    refine ⟨e + v, x + y, by rcases hv with rfl | rfl; exacts [.inl rfl, .inr (by ring)], ?_⟩
    calc R ^ e * F ^ x * (F ^ y * R ^ a) = R ^ e * (F ^ (x + y) * R ^ a) := by rw [Matrix.zpow_add hFu]; simp only [Matrix.mul_assoc]
      _ = _ := by rw [e1, Matrix.zpow_add hu]; simp only [Matrix.mul_assoc]

theorem dihedral_sample (z : List ℝ) (a b c x y w : ℤ) {o p q : List ℕ} (ho : o.Perm (range 2)) (hp : p.Perm (range 2)) (hq : q.Perm (range 2)) :
    noise2sample z [[a, b, c], [x, y, w]] [] [R, F] [o, p, q] =
      (if o = [0, 1] then R ^ a * F ^ x else F ^ x * R ^ a) * (if p = [0, 1] then R ^ b * F ^ y else F ^ y * R ^ b) *
        (if q = [0, 1] then R ^ c * F ^ w else F ^ w * R ^ c) := by
  rw [noise2sample_disc _ _ _ (by simp)]
  rcases orders_two ho with rfl | rfl <;> rcases orders_two hp with rfl | rfl <;> rcases orders_two hq with rfl | rfl <;>
    simp [zipIdx_cons, Matrix.mul_assoc]

end dihedral

/-- **C119.** From `D(k)` only `R^e` and `R^e F` with `|e| ≤ 15` are sampled, so for `k ≥ 32` some elements never are; for `k ≤ 28` all are,
whatever the orders of the generators. -/
theorem C119_d (k : ℕ) (hk : 0 < k) : ∃ G R F, dihedralGroup k = .ok G ∧ G.disc.map (denseGen 2) = [R, F] ∧
    (∀ o h, G.CanSampleIn 2 none o h → ∃ e : ℤ, -15 ≤ e ∧ e ≤ 15 ∧ (h = R ^ e ∨ h = R ^ e * F)) ∧
    (32 ≤ k → ∃ h, Generated [] (G.disc.map (denseGen 2)) h ∧ ∀ o, ¬ G.CanSampleIn 2 none o h) ∧
    (k ≤ 28 → ∀ h, Generated [] (G.disc.map (denseGen 2)) h → ∀ o, OrdersOK 2 o → G.CanSampleIn 2 none o h) := by
  obtain ⟨G, R, F, hG, -, hl, hd, hRe, hR, hF, -, hFd, hRF, hgen⟩ := C61_dihedral k hk
  have hu : IsUnit R.det := by
    have h1 : R ^ k = 1 := (hR k).2 (dvd_refl k)
    have := congrArg det h1
    rw [det_pow, det_one] at this
    exact IsUnit.of_pow_eq_one this hk.ne'
  have hdet : ∀ e : ℤ, R ^ e = 1 ↔ (k : ℤ) ∣ e := by
    intro j
    rcases Int.eq_nat_or_neg j with ⟨m, rfl | rfl⟩
    · rw [zpow_natCast, hR, Int.natCast_dvd_natCast]
    · rw [Matrix.zpow_neg_natCast, Int.dvd_neg, Int.natCast_dvd_natCast, ← hR]
      constructor
      · intro h
        have hum : IsUnit (R ^ m).det := by rw [det_pow]; exact hu.pow m
        have := Matrix.mul_nonsing_inv (R ^ m) hum
        rwa [h, Matrix.mul_one] at this
      · intro h; rw [h, inv_one]
  have hbound : ∀ o h, G.CanSampleIn 2 none o h → ∃ e : ℤ, -15 ≤ e ∧ e ≤ 15 ∧ (h = R ^ e ∨ h = R ^ e * F) := by
    intro o h hs
    obtain ⟨N, ⟨z, ks, ord⟩, hw, rfl, hh⟩ := (canSampleIn_iff hl _ _).1 hs
    rw [hd] at hw hh
    obtain ⟨z', -, k', hk', rfl⟩ := mem_samplesOf hh
    obtain ⟨h3, h4⟩ := hw.ks.2 k' hk'
    obtain ⟨o1, o2⟩ := hw.orders
    simp only at o1 o2 ⊢
    match k', h3, h4, ord, o1, o2 with
    | [l, l'], _, h4, [o, p, q], _, o2 =>
      obtain ⟨l1, l2⟩ := h4 l (by simp)
      obtain ⟨m1, -⟩ := h4 l' (by simp)
      match l, l1, l2, l', m1 with
      | [a, b, c], _, l2, [x, y, w], _ =>
        have ho := o2 o (by simp)
        have hp := o2 p (by simp)
        have hq := o2 q (by simp)
        have ha := l2 a (by simp)
        have hb := l2 b (by simp)
        have hc := l2 c (by simp)
        rw [dihedral_sample _ a b c x y w ho hp hq]
        obtain ⟨e1, x1, he1, r1⟩ := dihedral_round hF hu hRF ho 0 a 0 x
        obtain ⟨e2, x2, he2, r2⟩ := dihedral_round hF hu hRF hp e1 b x1 y
        obtain ⟨e3, x3, he3, r3⟩ := dihedral_round hF hu hRF hq e2 c x2 w
        rw [zpow_zero, zpow_zero, Matrix.one_mul, Matrix.one_mul] at r1
        refine ⟨e3, by omega, by omega, ?_⟩
        rw [r1, r2, r3]
        rcases flip_zpow hF x3 with h | h
        · left; rw [h, Matrix.mul_one]
        · right; rw [h]
  refine ⟨G, R, F, hG, hd, hbound, fun hk32 => ⟨R ^ 16, (hgen _).2 ⟨16, by omega, .inl rfl⟩, fun o ho => ?_⟩, fun hk28 h hh o ho => ?_⟩
  · obtain ⟨e, e1, e2, e3⟩ := hbound o _ ho
    have hRd : R.det = 1 := by
      rw [hRe, det_fin_two_of]
      have := Real.cos_sq_add_sin_sq (2 * Real.pi / k)
      linarith
    have hRz : ∀ e : ℤ, (R ^ e).det = 1 := by
      intro e
      rcases Int.eq_nat_or_neg e with ⟨m, rfl | rfl⟩
      · rw [zpow_natCast, det_pow, hRd, one_pow]
      · rw [Matrix.zpow_neg_natCast, det_nonsing_inv, det_pow, hRd, one_pow, Ring.inverse_one]
    have h16 : R ^ (16 : ℤ) = R ^ (16 : ℕ) := zpow_natCast R 16
    rcases e3 with e3 | e3
    · have : R ^ (16 - e : ℤ) = 1 := by
        rw [sub_eq_add_neg, Matrix.zpow_add hu, h16, e3, ← Matrix.zpow_add hu, add_neg_cancel, zpow_zero]
      have := Int.le_of_dvd (by omega) ((hdet _).1 this)
      omega
    · have := congrArg det e3
      rw [det_mul, hRz, hFd, ← h16, hRz] at this
      norm_num at this
  · -- every element is `R^e` or `R^e F` with the exponent reduced into a window of 28 values
    have red : ∀ (lo : ℤ) (j : ℤ), ∃ e, lo ≤ e ∧ e < lo + 28 ∧ R ^ j = R ^ e := by
      intro lo j
      have hm0 := Int.emod_nonneg (j - lo) (by omega : (k : ℤ) ≠ 0)
      have hm1 := Int.emod_lt_of_pos (j - lo) (by omega : (0 : ℤ) < k)
      refine ⟨(j - lo) % k + lo, by omega, by omega, ?_⟩
      have hdiv : j = ((j - lo) % k + lo) + k * ((j - lo) / k) := by
        have := Int.emod_add_mul_ediv (j - lo) k
        linarith
      conv_lhs => rw [hdiv]
      rw [Matrix.zpow_add hu, (hdet _).2 (dvd_mul_right _ _), Matrix.mul_one]
    have split3 : ∀ e : ℤ, -15 ≤ e → e ≤ 12 → ∃ a b c : ℤ, e = a + b + c ∧ (-5 ≤ a ∧ a < 5) ∧ (-5 ≤ b ∧ b < 5) ∧ (-5 ≤ c ∧ c < 5) := by
      intro e h1 h2
      refine ⟨max (-5) (min 4 e), max (-5) (min 4 (e - max (-5) (min 4 e))), e - max (-5) (min 4 e) - max (-5) (min 4 (e - max (-5) (min 4 e))), ?_, ?_, ?_, ?_⟩ <;> omega
    have split3' : ∀ e : ℤ, -14 ≤ e → e ≤ 13 → ∃ a b c : ℤ, e = a + b - c ∧ (-5 ≤ a ∧ a < 5) ∧ (-5 ≤ b ∧ b < 5) ∧ (-5 ≤ c ∧ c < 5) := by
      intro e h1 h2
      refine ⟨max (-5) (min 4 e), max (-5) (min 4 (e - max (-5) (min 4 e))), -(e - max (-5) (min 4 e) - max (-5) (min 4 (e - max (-5) (min 4 e)))), ?_, ?_, ?_, ?_⟩ <;> omega
    obtain ⟨o1, o2⟩ := ho
    match o, o1, o2 with
    | [o, p, q], _, o2 =>
      have ho := o2 o (by simp)
      have hp := o2 p (by simp)
      have hq := o2 q (by simp)
      have make : ∀ a b c w : ℤ, (-5 ≤ a ∧ a < 5) → (-5 ≤ b ∧ b < 5) → (-5 ≤ c ∧ c < 5) → (w = 0 ∨ w = 1) →
          h = R ^ a * R ^ b * (if q = [0, 1] then R ^ c * F ^ w else F ^ w * R ^ c) → G.CanSampleIn 2 none [o, p, q] h := by
        intro a b c w ha hb hc hw e
        rw [canSampleIn_iff hl, hd]
        refine ⟨1, ⟨[[]], [[[a, b, c], [0, 0, w]]], [o, p, q]⟩, ⟨⟨rfl, by simp⟩, ⟨rfl, ?_⟩, ⟨rfl, o2⟩⟩, rfl, ?_⟩
        · intro l hl
          simp only [mem_singleton] at hl
          subst hl
          refine ⟨rfl, fun l hl => ?_⟩
          simp only [mem_cons, not_mem_nil, or_false] at hl
          rcases hl with rfl | rfl
          · refine ⟨rfl, fun x hx => ?_⟩
            simp only [mem_cons, not_mem_nil, or_false] at hx
            rcases hx with rfl | rfl | rfl <;> assumption
          · refine ⟨rfl, fun x hx => ?_⟩
            simp only [mem_cons, not_mem_nil, or_false] at hx
            rcases hx with rfl | rfl | rfl
            · omega
            · omega
            · omega
        · rw [samplesOf, zipWith_cons_cons, scaleNoise, dihedral_sample [] a b c 0 0 w ho hp hq, e]
          simp
      obtain ⟨j, -, rfl | rfl⟩ := (hgen h).1 hh
      · obtain ⟨e, e1, e2, e3⟩ := red (-15) j
        obtain ⟨a, b, c, rfl, ha, hb, hc⟩ := split3 e e1 (by omega)
        refine make a b c 0 ha hb hc (.inl rfl) ?_
        rw [zpow_natCast] at e3
        rw [e3, Matrix.zpow_add hu, Matrix.zpow_add hu]
        split_ifs <;> simp
      · have hj : F * R ^ j = R ^ (-(j : ℤ)) * F := by rw [← zpow_natCast, flip_rot hF hu hRF]
        by_cases hq1 : q = [0, 1]
        · obtain ⟨e, e1, e2, e3⟩ := red (-15) (-(j : ℤ))
          obtain ⟨a, b, c, rfl, ha, hb, hc⟩ := split3 e e1 (by omega)
          refine make a b c 1 ha hb hc (.inr rfl) ?_
          rw [hj, e3, Matrix.zpow_add hu, Matrix.zpow_add hu, if_pos hq1, zpow_one]
          simp only [Matrix.mul_assoc]
        · obtain ⟨e, e1, e2, e3⟩ := red (-14) (-(j : ℤ))
          obtain ⟨a, b, c, rfl, ha, hb, hc⟩ := split3' e e1 (by omega)
          refine make a b c 1 ha hb hc (.inr rfl) ?_
          rw [hj, e3, sub_eq_add_neg, Matrix.zpow_add hu, Matrix.zpow_add hu, if_neg hq1, zpow_one, flip_rot hF hu hRF]
          simp only [Matrix.mul_assoc]

/-- Cases: three orders of two generators; all of `D(4)` can be sampled with them, and `D(40)` has elements that cannot. -/
example : OrdersOK 2 [[0, 1], [1, 0], [1, 0]] := ⟨rfl, by
  intro o ho
  simp only [mem_cons, not_mem_nil, or_false, or_self] at ho
  rcases ho with rfl | rfl
  · exact Perm.refl _
  · exact Perm.swap 0 1 []⟩

example : ∃ G, dihedralGroup 40 = .ok G ∧ ∃ h, Generated [] (G.disc.map (denseGen 2)) h ∧ ∀ o, ¬ G.CanSampleIn 2 none o h := by
  obtain ⟨G, R, F, hG, -, -, h, -⟩ := C119_d 40 (by norm_num)
  exact ⟨G, hG, h (by norm_num)⟩

end Verif
