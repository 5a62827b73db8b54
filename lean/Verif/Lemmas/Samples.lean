import Verif.Spec.Samples
import Verif.Lemmas.Sample
import Verif.Lemmas.ExpRot

/-! # Which matrices can be sampled -/
namespace Verif
open Matrix List NormedSpace

variable {𝕜 : Type*} [RCLike 𝕜] {d : ℕ} {lie disc : List (Matrix (Fin d) (Fin d) 𝕜)}

theorem samplesOf_length {zs : Option (List ℝ)} {w : Draws} {N D M : ℕ} (hw : w.Meets N D M) : (samplesOf zs lie disc w).length = N := by
  simp [samplesOf, hw.z.1, hw.ks.1]

theorem mem_samplesOf {zs : Option (List ℝ)} {w : Draws} {h : Matrix (Fin d) (Fin d) 𝕜} (hh : h ∈ samplesOf zs lie disc w) :
    ∃ z ∈ w.z, ∃ k ∈ w.ks, h = noise2sample (scaleNoise zs z) k lie disc w.orders := by
  unfold samplesOf at hh
  obtain ⟨i, hi, rfl⟩ := mem_iff_getElem.1 hh
  rw [getElem_zipWith]
  exact ⟨_, getElem_mem _, _, getElem_mem _, rfl⟩

theorem samplesOf_generated {zs : Option (List ℝ)} {w : Draws} {N : ℕ} (hw : w.Meets N lie.length disc.length) :
    ∀ h ∈ samplesOf zs lie disc w, Generated lie disc h := by
  intro h hh
  obtain ⟨z, -, k, -, rfl⟩ := mem_samplesOf hh
  exact sample_generated _ _ _ fun o ho i hi => mem_range.1 (((hw.orders.2 o ho).mem_iff).1 hi)

theorem span_lieComb {A : Matrix (Fin d) (Fin d) 𝕜} (hA : A ∈ Submodule.span ℝ {B | B ∈ lie}) : ∃ z : List ℝ, z.length = lie.length ∧ lieComb z lie = A := by
  induction lie generalizing A with
  | nil =>
    simp only [not_mem_nil, Set.setOf_false, Submodule.span_empty, Submodule.mem_bot] at hA
    exact ⟨[], rfl, by rw [hA]; rfl⟩
  | cons B lie ih =>
    have : {C | C ∈ B :: lie} = insert B {C | C ∈ lie} := by ext; simp
    rw [this, Submodule.mem_span_insert] at hA
    obtain ⟨c, C, hC, rfl⟩ := hA
    obtain ⟨z, hz, rfl⟩ := ih hC
    refine ⟨c :: z, by simp [hz], ?_⟩
    simp only [lieComb, zipWith_cons_cons, sum_cons]
    rw [RCLike.real_smul_eq_coe_smul (K := 𝕜)]

theorem unscale {zs : Option (List ℝ)} {D : ℕ} (h : ScaleOK zs D) {z : List ℝ} (hz : z.length = D) : ∃ z', z'.length = D ∧ scaleNoise zs z' = z := by
  cases zs with
  | none => exact ⟨z, hz, rfl⟩
  | some s =>
    obtain ⟨h1, h2⟩ := h s rfl
    refine ⟨zipWith (· / ·) z s, by simp [hz, h1], ?_⟩
    apply ext_getElem
    · simp [scaleNoise, hz, h1]
    · intro i i1 i2
      simp only [scaleNoise, getElem_zipWith]
      exact div_mul_cancel₀ _ (h2 _ (getElem_mem _))

/-- With infinitesimal generators only, exactly the exponentials of their combinations are sampled. -/
theorem sampledBy_lie {zs : Option (List ℝ)} (hs : ScaleOK zs lie.length) (h : Matrix (Fin d) (Fin d) 𝕜) :
    SampledBy zs lie [] h ↔ ∃ A ∈ Submodule.span ℝ {B | B ∈ lie}, h = exp A := by
  have key : ∀ z ks o, noise2sample z ks lie [] o = exp (lieComb z lie) := by
    intro z ks o
    unfold noise2sample
    simp only [length_nil, if_true]
    split_ifs with h1
    · have : lie = [] := length_eq_zero_iff.1 h1
      subst this
      simp [lieComb]
    · rw [one_mul]
  constructor
  · rintro ⟨N, w, hw, hh⟩
    obtain ⟨z, -, k, -, rfl⟩ := mem_samplesOf hh
    rw [key]
    exact ⟨_, lieComb_mem _ _, rfl⟩
  · rintro ⟨A, hA, rfl⟩
    obtain ⟨z, hz, rfl⟩ := span_lieComb hA
    obtain ⟨z', hz', e⟩ := unscale hs hz
    refine ⟨1, ⟨[z'], [[]], [[], [], []]⟩, ⟨⟨rfl, by simpa using hz'⟩, ⟨rfl, by simp⟩, ⟨rfl, by simp⟩⟩, ?_⟩
    simp [samplesOf, key, e]

/-- With one discrete generator, three rounds of powers between -5 and 4 give its powers between -15 and 12. -/
theorem sampledBy_one {zs : Option (List ℝ)} (hs : ScaleOK zs lie.length) {r : Matrix (Fin d) (Fin d) 𝕜} (hr : IsUnit r.det) (h : Matrix (Fin d) (Fin d) 𝕜) :
    SampledBy zs lie [r] h ↔ ∃ A ∈ Submodule.span ℝ {B | B ∈ lie}, ∃ k : ℤ, -15 ≤ k ∧ k ≤ 12 ∧ h = exp A * r ^ k := by
  have key : ∀ z a b c, noise2sample z [[a, b, c]] lie [r] [[0], [0], [0]] = exp (lieComb z lie) * r ^ (a + b + c) := by
    intro z a b c
    have e : (if lie.length = 0 then (1 : Matrix (Fin d) (Fin d) 𝕜) else 1 * exp (lieComb z lie)) = exp (lieComb z lie) := by
      split_ifs with h1
      · have : lie = [] := length_eq_zero_iff.1 h1
        subst this
        simp [lieComb]
      · rw [one_mul]
    unfold noise2sample
    simp only [e, length_singleton, one_ne_zero, if_false, zipIdx_cons, zipIdx_nil, foldl_cons, foldl_nil, getD_cons_zero, getD_cons_succ, matrixPowerSimple_eq]
    rw [Matrix.zpow_add hr, Matrix.zpow_add hr]
    simp only [Matrix.mul_assoc]
  have hperm : ∀ o : List ℕ, o.Perm (range 1) → o = [0] := fun o ho => by
    have : range 1 = [0] := rfl
    rw [this] at ho
    exact perm_singleton.1 ho
  constructor
  · rintro ⟨N, ⟨z, ks, ord⟩, hw, hh⟩
    obtain ⟨y, -, k, hk, rfl⟩ := mem_samplesOf hh
    have ho : ord = [[0], [0], [0]] := by
      obtain ⟨h1, h2⟩ := hw.orders
      simp only at h1 h2
      match ord, h1 with
      | [x, y, w], _ => rw [hperm x (h2 x (by simp)), hperm y (h2 y (by simp)), hperm w (h2 w (by simp))]
    obtain ⟨h3, h4⟩ := hw.ks.2 k hk
    obtain ⟨l, hl⟩ : ∃ l, k = [l] := length_eq_one_iff.1 h3
    obtain ⟨h5, h6⟩ := h4 l (by rw [hl]; simp)
    match l, h5, hl, h6 with
    | [a, b, c], _, hl, h6 =>
      rw [hl]; simp only [ho]; rw [key]
      have ha := h6 a (by simp)
      have hb := h6 b (by simp)
      have hc := h6 c (by simp)
      exact ⟨_, lieComb_mem _ _, _, by omega, by omega, rfl⟩
  · rintro ⟨A, hA, k, k1, k2, rfl⟩
    obtain ⟨z, hz, rfl⟩ := span_lieComb hA
    obtain ⟨z', hz', e⟩ := unscale hs hz
    obtain ⟨a, b, c, rfl, ha, hb, hc⟩ : ∃ a b c : ℤ, k = a + b + c ∧ (-5 ≤ a ∧ a < 5) ∧ (-5 ≤ b ∧ b < 5) ∧ (-5 ≤ c ∧ c < 5) := by
      refine ⟨max (-5) (min 4 k), max (-5) (min 4 (k - max (-5) (min 4 k))), k - max (-5) (min 4 k) - max (-5) (min 4 (k - max (-5) (min 4 k))), ?_, ?_, ?_, ?_⟩ <;> omega
    refine ⟨1, ⟨[z'], [[[a, b, c]]], [[0], [0], [0]]⟩, ⟨⟨rfl, by simpa using hz'⟩, ⟨rfl, ?_⟩, ⟨rfl, ?_⟩⟩, ?_⟩
    · intro k hk
      simp only [mem_singleton] at hk
      subst hk
      refine ⟨rfl, fun l hl => ?_⟩
      simp only [mem_singleton] at hl
      subst hl
      refine ⟨rfl, fun x hx => ?_⟩
      simp only [mem_cons, not_mem_nil, or_false] at hx
      rcases hx with rfl | rfl | rfl <;> assumption
    · intro o ho
      simp only [mem_cons, not_mem_nil, or_false, or_self] at ho
      subst ho
      exact Perm.refl _
    · simp [samplesOf, key, e]

/-- With one infinitesimal generator everything generated is sampled. -/
theorem generated_single (A : Matrix (Fin d) (Fin d) 𝕜) (h : Matrix (Fin d) (Fin d) 𝕜) :
    Generated [A] [] h ↔ ∃ B ∈ Submodule.span ℝ {B | B ∈ [A]}, h = exp B := by
  refine ⟨fun hg => ?_, fun ⟨B, hB, e⟩ => e ▸ .exp hB⟩
  have hset : {B | B ∈ [A]} = {A} := by ext; simp
  induction hg with
  | one => exact ⟨0, Submodule.zero_mem _, by simp⟩
  | exp hA => exact ⟨_, hA, rfl⟩
  | gen h => simp at h
  | inv h => simp at h
  | mul _ _ h1 h2 =>
    obtain ⟨B, hB, rfl⟩ := h1
    obtain ⟨C, hC, rfl⟩ := h2
    refine ⟨B + C, Submodule.add_mem _ hB hC, ?_⟩
    rw [hset, Submodule.mem_span_singleton] at hB hC
    obtain ⟨s, rfl⟩ := hB
    obtain ⟨t, rfl⟩ := hC
    exact (Matrix.exp_add_of_commute _ _ ((Commute.refl A).smul_left s |>.smul_right t)).symm

/-- A diagonal matrix with a negative entry that differs from the others is not the exponential of a real matrix. -/
theorem not_exp {n : Type*} [Fintype n] [DecidableEq n] {c : n → ℝ} {a : n} (hc : c a < 0) (hne : ∀ i, i ≠ a → c i ≠ c a) (A : Matrix n n ℝ) : exp A ≠ diagonal c := by
  intro h
  have hcomm : A * diagonal c = diagonal c * A := by
    rw [← h]
    exact exp_intertwine A A A rfl
  have hcol : ∀ i, i ≠ a → A i a = 0 := fun i hi => by
    have := congrFun (congrFun hcomm i) a
    rw [mul_diagonal, diagonal_mul, mul_comm, ← sub_eq_zero, ← sub_mul] at this
    exact (mul_eq_zero.1 this).resolve_left (sub_ne_zero.2 (hne i hi).symm)
  obtain ⟨X, hX⟩ : ∃ X : Matrix n (Fin 1) ℝ, X = Matrix.of fun i _ => if i = a then 1 else 0 := ⟨_, rfl⟩
  have hi := exp_intertwine X (diagonal fun _ : Fin 1 => A a a) A (by
    ext i j
    rw [mul_diagonal, hX, Matrix.mul_apply]
    simp only [of_apply, mul_ite, mul_one, mul_zero, Finset.sum_ite_eq', Finset.mem_univ, if_true]
    by_cases e : i = a
    · subst e; simp
    · simp [e, hcol i e])
  rw [Matrix.exp_diagonal, h] at hi
  have := congrFun (congrFun hi a) 0
  rw [mul_diagonal, diagonal_mul, hX] at this
  simp only [of_apply, if_true, one_mul, mul_one] at this
  rw [show (exp (fun _ : Fin 1 => A a a) : Fin 1 → ℝ) 0 = Real.exp (A a a) by rw [Pi.coe_exp, Real.exp_eq_exp_ℝ]] at this
  have := Real.exp_pos (A a a)
  linarith

end Verif
