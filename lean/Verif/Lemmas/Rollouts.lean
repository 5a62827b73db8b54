import Mathlib.Analysis.ODE.ExistUnique
import Mathlib.Analysis.Calculus.ContDiff.RCLike
import Verif.Props.HamiltonianNets

/-!
# Rollouts of smooth fields
-/
namespace Verif
open List Set

theorem Rollout.length {n : ℕ} {f : List ℝ → List ℝ} {z0 ts : List ℝ} {zs : List (List ℝ)} (h : Rollout n f z0 ts zs) : z0.length = n := by
  obtain ⟨z, h1, -⟩ := h
  rw [← h1, length_ofFn]

/-- Rollouts of the rows make a rollout of the batch. -/
theorem Rollout.batch {n : ℕ} {f : List ℝ → List ℝ} (hf : ∀ z, z.length = n → (f z).length = n) {ts : List ℝ} {z0 : List (List ℝ)} {zs : List (List (List ℝ))}
    (h : Forall₂ (fun z traj => Rollout n f z ts traj) z0 zs) :
    ∃ Zs, Rollout (z0.length * n) (fun y => ((rowsOf n z0.length y).map f).flatten) z0.flatten ts Zs ∧ transpose102 z0.length (Zs.map (rowsOf n z0.length)) = zs := by
  have hz : ∀ z ∈ z0, z.length = n := fun z hz => by
    obtain ⟨i, hi, rfl⟩ := List.getElem_of_mem hz
    exact (h.get hi (by rw [← h.length_eq]; exact hi)).length
  have hch : ∀ b : Fin z0.length, ∃ z : ℝ → Fin n → ℝ, List.ofFn (z (ts.headD 0)) = z0[b] ∧ (∀ c ∈ ts, Solves f z (ts.headD 0) c) ∧
      zs[b.1]'(by rw [← h.length_eq]; exact b.2) = ts.map fun t => List.ofFn (z t) := fun b => h.get b.2 (by rw [← h.length_eq]; exact b.2)
  choose Z h1 h2 h3 using hch
  obtain ⟨rows, hrows⟩ : ∃ rows : ℝ → List (List ℝ), rows = fun t => List.ofFn fun b : Fin z0.length => List.ofFn (Z b t) := ⟨_, rfl⟩
  have hrl : ∀ t, (rows t).length = z0.length := fun t => by rw [hrows, length_ofFn]
  have hrn : ∀ t, ∀ r ∈ rows t, r.length = n := fun t r hr => by
    rw [hrows] at hr
    obtain ⟨b, rfl⟩ := (List.mem_ofFn' _ _).1 hr
    simp
  have hlen : ∀ t, (rows t).flatten.length = z0.length * n := fun t => by rw [length_flatten_uniform (hrn t), hrl]
  have hofn : ∀ t, (List.ofFn fun j : Fin (z0.length * n) => (rows t).flatten.getD j 0) = (rows t).flatten := fun t => ofFn_getD (hlen t)
  have hrowsOf : ∀ t, rowsOf n z0.length (rows t).flatten = rows t := fun t => by
    have := rowsOf_flatten (hrn t)
    rwa [hrl] at this
  refine ⟨ts.map fun t => (rows t).flatten, ⟨fun t j => (rows t).flatten.getD j 0, ?_, ?_, ?_⟩, ?_⟩
  · rw [hofn]
    congr 1
    rw [hrows]
    refine ext_getElem (by simp) fun b hb1 hb2 => ?_
    rw [List.getElem_ofFn]
    exact h1 ⟨b, hb2⟩
  · intro c hc t ht
    rw [hasDerivWithinAt_pi]
    intro j
    have hn : 0 < n := by
      rcases Nat.eq_zero_or_pos n with h0 | h0
      · exact absurd j.2 (by simp [h0])
      · exact h0
    have hb : j.1 / n < z0.length := by
      rw [Nat.div_lt_iff_lt_mul hn]; exact j.2
    have hi : j.1 % n < n := Nat.mod_lt _ hn
    have hj : j.1 / n * n + j.1 % n = j.1 := by rw [Nat.mul_comm]; exact Nat.div_add_mod _ _
    have hent : ∀ s, (rows s).flatten.getD j 0 = Z ⟨j.1 / n, hb⟩ s ⟨j.1 % n, hi⟩ := fun s => by
      have := getD_flatten_uniform (hrn s) (b := j.1 / n) (i := j.1 % n) (by rw [hrl]; exact hb) hi
      rw [hj] at this
      rw [this, getD_eq_getElem (rows s) _ (by rw [hrl]; exact hb)]
      have hr : (rows s)[j.1 / n]'(by rw [hrl]; exact hb) = List.ofFn (Z ⟨j.1 / n, hb⟩ s) := by simp only [hrows, List.getElem_ofFn]
      rw [hr]
      exact getD_ofFn (Z ⟨j.1 / n, hb⟩ s) ⟨j.1 % n, hi⟩
    have hd := hasDerivWithinAt_pi.1 (h2 ⟨j.1 / n, hb⟩ c hc t ht) ⟨j.1 % n, hi⟩
    have e1 : (fun s => (rows s).flatten.getD j 0) = fun s => Z ⟨j.1 / n, hb⟩ s ⟨j.1 % n, hi⟩ := funext hent
    rw [e1]
    refine hd.congr_deriv ?_
    unfold asMap
    rw [hofn]
    beta_reduce
    rw [hrowsOf]
    have hml : ∀ r ∈ (rows t).map f, r.length = n := by
      intro r hr
      obtain ⟨z, hz, rfl⟩ := mem_map.1 hr
      exact hf z (hrn t z hz)
    have := getD_flatten_uniform hml (b := j.1 / n) (i := j.1 % n) (by rw [length_map, hrl]; exact hb) hi
    rw [hj] at this
    rw [this, getD_eq_getElem (List.map f (rows t)) _ (by rw [length_map, hrl]; exact hb), getElem_map]
    have hr : (rows t)[j.1 / n]'(by rw [hrl]; exact hb) = List.ofFn (Z ⟨j.1 / n, hb⟩ t) := by simp only [hrows, List.getElem_ofFn]
    rw [hr]
  · exact map_congr_left fun t _ => (hofn t).symm
  · unfold transpose102
    rw [map_map]
    refine ext_getElem (by simp [h.length_eq]) fun b hb1 hb2 => ?_
    have hb : b < z0.length := by simpa using hb1
    rw [getElem_map, getElem_range, map_map, h3 ⟨b, hb⟩]
    refine map_congr_left fun t _ => ?_
    simp only [Function.comp]
    rw [hrowsOf, getD_eq_getElem _ _ (by rw [hrl]; exact hb)]
    simp only [hrows, List.getElem_ofFn]

/-- The batched rollout consists of the rollouts of the rows, when these exist. -/
theorem bOdeFlow_sound {n : ℕ} {odeint : Odeint} {dynamics : List ℝ → ℝ → Py (List ℝ)} {ts : List ℝ} {z0 : List (List ℝ)} {zs : List (List (List ℝ))}
    (hd : ∀ z t, z.length = n → ∃ v, dynamics z t = .ok v ∧ v.length = n) (hauto : ∀ z : List ℝ, z.length = n → ∀ t, dynamics z t = dynamics z 0)
    (ho : odeint.Sound (z0.length * n) (fun y t => ((rowsOf n z0.length y).map fun z => total dynamics z t).flatten) ts)
    (h : Forall₂ (fun z traj => Rollout n (fun x => total dynamics x 0) z ts traj) z0 zs) : bOdeFlow odeint dynamics n z0 ts = .ok zs := by
  have hz : ∀ z ∈ z0, z.length = n := fun z hz => by
    obtain ⟨i, hi, rfl⟩ := List.getElem_of_mem hz
    exact (h.get hi (by rw [← h.length_eq]; exact hi)).length
  have htr : ∃ vs, (z0.mapM fun z => dynamics z 0) = Except.ok vs := by
    clear ho h
    induction z0 with
    | nil => exact ⟨[], rfl⟩
    | cons z z0 ih =>
      obtain ⟨v, hv, -⟩ := hd z 0 (hz z (by simp))
      obtain ⟨vs, hvs⟩ := ih fun z h => hz z (by simp [h])
      exact ⟨v :: vs, by rw [mapM_cons, hv, hvs]; rfl⟩
  obtain ⟨vs, hvs⟩ := htr
  unfold bOdeFlow
  rw [hvs]
  show Except.ok _ = _
  congr 1
  unfold odeint2
  obtain ⟨Zs, h1, h2⟩ := Rollout.batch (f := fun x => total dynamics x 0) (fun z hz => by
    obtain ⟨v, e, l⟩ := hd z 0 hz
    rw [total, e]; exact l) h
  rw [ho (fun y hy t => ?_) _ _ h1, h2]
  dsimp only
  congr 1
  refine map_congr_left fun z hz' => ?_
  rw [total, hauto z ?_ t]; rfl
  obtain ⟨c, hc, rfl⟩ := List.getElem_of_mem hz'
  have hc' : c < z0.length := by rwa [length_rowsOf] at hc
  have h := getD_rowsOf n z0.length y c hc'
  rw [getD_eq_getElem _ _ hc] at h
  have h1 : (c + 1) * n ≤ z0.length * n := Nat.mul_le_mul_right _ hc'
  have h2 : (c + 1) * n = c * n + n := by ring
  rw [h, length_take, length_drop]
  omega

/-- A field that is continuously differentiable has a rollout from each state, at least for a short time. -/
theorem exists_rollout {n : ℕ} {f : List ℝ → List ℝ} (hf : ContDiff ℝ 1 (asMap n f)) {z0 : List ℝ} (hz : z0.length = n) (t0 : ℝ) :
    ∃ ε > 0, ∀ ts : List ℝ, (∀ t ∈ t0 :: ts, t0 ≤ t ∧ t < t0 + ε) → ∃ zs, Rollout n f z0 (t0 :: ts) zs := by
  obtain ⟨α, h0, ε, hε, h⟩ := (hf.contDiffAt (x := fun i : Fin n => z0.getD i 0)).exists_forall_mem_closedBall_exists_eq_forall_mem_Ioo_hasDerivAt₀ t0
  refine ⟨ε, hε, fun ts hts => ⟨_, α, ?_, fun b hb t ht => ?_, rfl⟩⟩
  · rw [headD_cons, h0, ofFn_getD hz]
  · rw [headD_cons] at ht
    exact (h t ⟨by linarith [ht.1], lt_of_le_of_lt ht.2 (hts b hb).2⟩).hasDerivWithinAt

/-- There is an integrator that meets the contract for all locally Lipschitz fields and all forward times. -/
theorem exists_integrator : ∃ odeint : Odeint, ∀ (n : ℕ) (f : List ℝ → ℝ → List ℝ) (ts : List ℝ), LocallyLipschitz (asMap n fun z => f z 0) → Forward ts →
    odeint.Sound n f ts := by
  classical
  refine ⟨fun f z0 ts => if h : ∃ zs, Rollout z0.length (fun z => f z 0) z0 ts zs then h.choose else [], fun n f ts hL hts _ z0 zs hr => ?_⟩
  have hn := hr.length
  subst hn
  have h : ∃ zs, Rollout z0.length (fun z => f z 0) z0 ts zs := ⟨zs, hr⟩
  show (if h : ∃ zs, Rollout z0.length (fun z => f z 0) z0 ts zs then h.choose else []) = zs
  rw [dif_pos h]
  exact C92_unique hL hts h.choose_spec hr

/-- The field of a batch is smooth if that of one state is. -/
theorem batch_smooth {k : WithTop ℕ∞} {n m : ℕ} {f : List ℝ → List ℝ} (hf : ∀ z, z.length = n → (f z).length = n) (h : ContDiff ℝ k (asMap n f)) :
    ContDiff ℝ k (asMap (m * n) fun y => ((rowsOf n m y).map f).flatten) := by
  rw [contDiff_pi] at h ⊢
  intro j
  have hn : 0 < n := by
    rcases Nat.eq_zero_or_pos n with h0 | h0
    · exact absurd j.2 (by simp [h0])
    · exact h0
  have hb : j.1 / n < m := by
    rw [Nat.div_lt_iff_lt_mul hn]; exact j.2
  have hi : j.1 % n < n := Nat.mod_lt _ hn
  have hj : j.1 / n * n + j.1 % n = j.1 := by rw [Nat.mul_comm]; exact Nat.div_add_mod _ _
  have hbn : ∀ i : Fin n, j.1 / n * n + i.1 < m * n := fun i => by
    have h1 : (j.1 / n + 1) * n ≤ m * n := Nat.mul_le_mul_right _ hb
    have h2 : (j.1 / n + 1) * n = j.1 / n * n + n := by ring
    omega
  have hrow : ∀ v : Fin (m * n) → ℝ, ((List.ofFn v).drop (j.1 / n * n)).take n = List.ofFn fun i : Fin n => v ⟨j.1 / n * n + i.1, hbn i⟩ := by
    intro v
    refine ext_getElem ?_ fun i h1 h2 => ?_
    · rw [length_take, length_drop, length_ofFn, length_ofFn]
      have h1 : (j.1 / n + 1) * n ≤ m * n := Nat.mul_le_mul_right _ hb
      have h2 : (j.1 / n + 1) * n = j.1 / n * n + n := by ring
      omega
    · rw [getElem_take, getElem_drop, List.getElem_ofFn, List.getElem_ofFn]
  have e : (fun v : Fin (m * n) → ℝ => asMap (m * n) (fun y => ((rowsOf n m y).map f).flatten) v j) =
      (fun v => asMap n f v ⟨j.1 % n, hi⟩) ∘ fun v : Fin (m * n) → ℝ => fun i : Fin n => v ⟨j.1 / n * n + i.1, hbn i⟩ := by
    funext v
    have hrl : ∀ r ∈ rowsOf n m (List.ofFn v), r.length = n := fun r hr => by
      obtain ⟨c, hc, rfl⟩ := List.getElem_of_mem hr
      have hc' : c < m := by rwa [length_rowsOf] at hc
      have h := getD_rowsOf n m (List.ofFn v) c hc'
      rw [getD_eq_getElem _ _ hc] at h
      have h1 : (c + 1) * n ≤ m * n := Nat.mul_le_mul_right _ hc'
      have h2 : (c + 1) * n = c * n + n := by ring
      rw [h, length_take, length_drop, length_ofFn]
      omega
    have hml : ∀ r ∈ (rowsOf n m (List.ofFn v)).map f, r.length = n := by
      intro r hr
      obtain ⟨z, hz, rfl⟩ := mem_map.1 hr
      exact hf z (hrl z hz)
    have := getD_flatten_uniform hml (b := j.1 / n) (i := j.1 % n) (by rw [length_map, length_rowsOf]; exact hb) hi
    rw [hj] at this
    unfold asMap Function.comp
    beta_reduce
    rw [this, getD_eq_getElem (List.map f (rowsOf n m (List.ofFn v))) _ (by rw [length_map, length_rowsOf]; exact hb), getElem_map]
    have hg := getD_rowsOf n m (List.ofFn v) (j.1 / n) hb
    rw [getD_eq_getElem _ _ (by rw [length_rowsOf]; exact hb), hrow] at hg
    rw [hg]
  rw [e]
  exact (h ⟨j.1 % n, hi⟩).comp (contDiff_pi.2 fun i => contDiff_apply ℝ ℝ _)

end Verif
