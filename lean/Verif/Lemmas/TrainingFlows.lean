import Verif.Spec.TrainingFlows
import Verif.Lemmas.Training
import Verif.Lemmas.Rollouts
import Verif.Props.HamDataset
import Verif.Props.DynamicsCases

/-!
# Batched rollouts of moved states
-/
namespace Verif
open List

theorem orth_inv {n : ℕ} {M : DMat ℝ} (hM : M.IsSq n) (h : M.transpose.mul M = DMat.one n) : M.mul M.transpose = DMat.one n :=
  DMat.mul_eq_one_comm ⟨hM.2, hM.1⟩ hM h

/-- There is an integrator that is exact wherever there is a rollout, and commutes with symmetries everywhere. -/
theorem exists_natural : ∃ odeint : Odeint, odeint.Natural ∧ ∀ (n : ℕ) (f : List ℝ → ℝ → List ℝ) (ts : List ℝ), LocallyLipschitz (asMap n fun z => f z 0) →
    Forward ts → odeint.Sound n f ts := by
  classical
  refine ⟨fun f z0 ts => if h : ∃ zs, Rollout z0.length (fun z => f z 0) z0 ts zs then h.choose else ts.map fun _ => replicate z0.length 0, ?_, ?_⟩
  · intro n f ts hts hauto hL hlen z0 hz
    subst hz
    refine ⟨?_, fun M hM ho hf => ?_⟩
    · intro z hz
      dsimp only at hz
      split_ifs at hz with h
      · exact (Rollout.lengths h.choose_spec).2 z hz
      · obtain ⟨_, -, rfl⟩ := mem_map.1 hz
        simp
    · have hMz : (M.mulVec z0).length = z0.length := by rw [DMat.length_mulVec, hM.1]
      dsimp only
      rw [hMz]
      by_cases h : ∃ zs, Rollout z0.length (fun z => f z 0) z0 ts zs
      · have h2 := h.choose_spec.map hM fun x hx => ⟨hlen x hx, hf x hx⟩
        have h' : ∃ zs, Rollout z0.length (fun z => f z 0) (M.mulVec z0) ts zs := ⟨_, h2⟩
        rw [dif_pos h, dif_pos h']
        exact C92_unique hL hts h'.choose_spec h2
      · have h' : ¬ ∃ zs, Rollout z0.length (fun z => f z 0) (M.mulVec z0) ts zs := by
          rintro ⟨zs, hzs⟩
          refine h ⟨zs.map M.transpose.mulVec, ?_⟩
          have hT : M.transpose.IsSq z0.length := ⟨hM.2, hM.1⟩
          have := hzs.map (M := M.transpose) hT fun x hx => ⟨hlen x hx, ?_⟩
          · rw [← DMat.mulVec_mul _ _ _ (by exact rfl), ho, DMat.mulVec_one _ rfl] at this
            exact this
          · have e1 : M.mulVec (M.transpose.mulVec x) = x := by
              rw [← DMat.mulVec_mul _ _ _ (by exact rfl), orth_inv hM ho, DMat.mulVec_one _ hx]
            have e2 := hf (M.transpose.mulVec x) (by rw [DMat.length_mulVec]; exact hM.2)
            rw [e1] at e2
            rw [e2, ← DMat.mulVec_mul _ _ _ (by exact rfl), ho, DMat.mulVec_one _ (hlen _ (by rw [DMat.length_mulVec]; exact hM.2))]
        rw [dif_neg h, dif_neg h', map_map]
        refine map_congr_left fun t _ => ?_
        rw [Function.comp]
        refine DMat.vec_ext (by rw [DMat.length_mulVec, length_replicate, hM.1]) fun i hi => ?_
        have hi : i < z0.length := by simpa using hi
        rw [DMat.getD_mulVec (by rw [hM.1]; exact hi), getD_replicate _ hi]
        refine (Finset.sum_eq_zero fun j hj => ?_).symm
        rw [getD_replicate _ (by rw [← hM.2]; exact Finset.mem_range.1 hj), mul_zero]
  · intro n f ts hL hts _ z0 zs hr
    have hn := hr.length
    subst hn
    have h : ∃ zs, Rollout z0.length (fun z => f z 0) z0 ts zs := ⟨zs, hr⟩
    show (if h : ∃ zs, Rollout z0.length (fun z => f z 0) z0 ts zs then h.choose else _) = zs
    rw [dif_pos h]
    exact C92_unique hL hts h.choose_spec hr

theorem bdiag_mulVec_rows {n : ℕ} {α : Type} (A : α → DMat ℝ) : ∀ (L : List α) (R : List (List ℝ)), R.length = L.length → (∀ p ∈ L, (A p).cols = n) → (∀ r ∈ R, r.length = n) →
    (DMat.bdiag (L.map A)).mulVec R.flatten = (zipWith (fun p r => (A p).mulVec r) L R).flatten := by
  intro L R hl hc hr
  have h := DMat.mulVec_bdiag (L.zip R) (fun x => A x.1) (fun x => x.2) (fun x hx => by
    rw [hr _ (of_mem_zip hx).2, hc _ (of_mem_zip hx).1])
  rw [flatMap_def, flatMap_def, show (fun x : α × List ℝ => A x.1) = A ∘ Prod.fst from rfl, ← map_map, map_fst_zip hl.ge,
    show (fun x : α × List ℝ => x.2) = Prod.snd from rfl, map_snd_zip hl.le] at h
  rw [h, zip_eq_zipWith, map_zipWith]

/-- Under an integrator that commutes with symmetries, the batched rollouts of moved states are the moved rollouts. -/
theorem flow_moves {odeint : Odeint} (hode : odeint.Natural) {field : List ℝ → ℝ → Py (List ℝ)} {n : ℕ} {G : DMat ℝ → Prop} {ts : List ℝ} (hts : Forward ts)
    (hf : ∀ z t, z.length = n → ∃ v, field z t = .ok v ∧ v.length = n) (hauto : ∀ z : List ℝ, z.length = n → ∀ t, field z t = field z 0)
    (hsm : ContDiff ℝ 1 (asMap n fun z => total field z 0))
    (hG : ∀ M, G M → M.IsSq n ∧ M.transpose.mul M = DMat.one n ∧ ∀ z : List ℝ, z.length = n → total field (M.mulVec z) 0 = M.mulVec (total field z 0)) :
    FlowMoves odeint field n G ts := by
  intro L hL
  have hlenf : ∀ z : List ℝ, z.length = n → (total field z 0).length = n := fun z hz => by
    obtain ⟨v, e, hv⟩ := hf z 0 hz
    rw [total, e]
    exact hv
  have htr : ∀ z0 : List (List ℝ), (∀ z ∈ z0, z.length = n) → ∃ vs, (z0.mapM fun z => field z 0) = Except.ok vs := by
    intro z0 hz
    induction z0 with
    | nil => exact ⟨[], rfl⟩
    | cons z z0 ih =>
      obtain ⟨v, hv, -⟩ := hf z 0 (hz z (by simp))
      obtain ⟨vs, hvs⟩ := ih fun z h => hz z (by simp [h])
      exact ⟨v :: vs, by rw [mapM_cons, hv, hvs]; rfl⟩
  have hrl : ∀ y : List ℝ, y.length = L.length * n → ∀ r ∈ rowsOf n L.length y, r.length = n := fun y hy => rowsOf_mem_length hy.ge
  obtain ⟨F, hF⟩ : ∃ F : List ℝ → ℝ → List ℝ, F = fun y t => ((rowsOf n L.length y).map fun z => total field z t).flatten := ⟨_, rfl⟩
  obtain ⟨B, hB⟩ : ∃ B : DMat ℝ, B = DMat.bdiag (L.map fun p => p.1) := ⟨_, rfl⟩
  have hz1 : ∀ z ∈ L.map (fun p => p.2), z.length = n := by
    intro z hz
    obtain ⟨p, hp, rfl⟩ := mem_map.1 hz
    exact (hL p hp).2
  have hz2 : ∀ z ∈ L.map (fun p => p.1.mulVec p.2), z.length = n := by
    intro z hz
    obtain ⟨p, hp, rfl⟩ := mem_map.1 hz
    rw [DMat.length_mulVec, (hG _ (hL p hp).1).1.1]
  have hrows : ∀ R : List (List ℝ), R.length = L.length → (∀ r ∈ R, r.length = n) → B.mulVec R.flatten = (zipWith (fun p r => p.1.mulVec r) L R).flatten := by
    intro R h1 h2
    rw [hB]
    exact bdiag_mulVec_rows _ L R h1 (fun p hp => (hG _ (hL p hp).1).1.2) h2
  have hzl : ∀ R : List (List ℝ), R.length = L.length → (zipWith (fun p r => p.1.mulVec r) L R).length = L.length := by
    intro R h
    rw [length_zipWith, h, min_self]
  have hzr : ∀ R : List (List ℝ), ∀ r ∈ zipWith (fun p r => p.1.mulVec r) L R, r.length = n := by
    intro R r hr
    obtain ⟨i, hi, rfl⟩ := getElem_of_mem hr
    rw [getElem_zipWith, DMat.length_mulVec, (hG _ (hL _ (getElem_mem _)).1).1.1]
  have hBr : ∀ y : List ℝ, y.length = L.length * n → rowsOf n L.length (B.mulVec y) = zipWith (fun p r => p.1.mulVec r) L (rowsOf n L.length y) := by
    intro y hy
    have e := hrows (rowsOf n L.length y) (length_rowsOf _ _ _) (hrl y hy)
    rw [flatten_rowsOf _ _ hy] at e
    rw [e]
    have := rowsOf_flatten (hzr (rowsOf n L.length y))
    rwa [hzl _ (length_rowsOf _ _ _)] at this
  have hflen : ∀ R : List (List ℝ), R.length = L.length → (∀ r ∈ R, r.length = n) → R.flatten.length = L.length * n := by
    intro R h1 h2
    rw [length_flatten, map_congr_left h2, map_const', sum_replicate, h1, smul_eq_mul]
  have hsum : (L.map fun _ => n).sum = L.length * n := by rw [map_const', sum_replicate, smul_eq_mul]
  have hBsq : B.IsSq (L.length * n) := by
    rw [hB]
    refine ⟨?_, ?_⟩
    · rw [DMat.bdiag_rows, map_map, ← hsum]
      exact congrArg _ (map_congr_left fun p hp => (hG _ (hL p hp).1).1.1)
    · rw [DMat.bdiag_cols, map_map, ← hsum]
      exact congrArg _ (map_congr_left fun p hp => (hG _ (hL p hp).1).1.2)
  have hBo : B.transpose.mul B = DMat.one (L.length * n) := by
    rw [hB, DMat.transpose_bdiag, map_map]
    show (DMat.bdiag (L.map fun p => p.1.transpose)).mul _ = _
    rw [DMat.bdiag_mul L (fun p => p.1.transpose) (fun p => p.1) (fun p _ => rfl), ← hsum, ← DMat.bdiag_one]
    exact congrArg _ (map_congr_left fun p hp => (hG _ (hL p hp).1).2.1)
  obtain ⟨n1, n2⟩ := hode (L.length * n) F ts hts (fun y hy t => by
      rw [hF]
      dsimp only
      congr 1
      refine map_congr_left fun z hz => ?_
      rw [total, hauto z (hrl y hy z hz) t]; rfl)
    (by rw [hF]; exact (batch_smooth hlenf hsm).locallyLipschitz) (fun y hy => by
      rw [hF]
      refine hflen _ (by rw [length_map, length_rowsOf]) fun r hr => ?_
      obtain ⟨z, hz, rfl⟩ := mem_map.1 hr
      exact hlenf z (hrl y hy z hz))
    (L.map fun p => p.2).flatten (hflen _ (length_map _) hz1)
  have n3 := n2 B hBsq hBo fun y hy => by
    rw [hF]
    dsimp only
    rw [hBr y hy, hrows _ (by rw [length_map, length_rowsOf]) (fun r hr => by
      obtain ⟨z, hz, rfl⟩ := mem_map.1 hr
      exact hlenf z (hrl y hy z hz)), map_zipWith, zipWith_map_right]
    congr 1
    refine ext_getElem (by simp) fun i h1 h2 => ?_
    rw [getElem_zipWith, getElem_zipWith]
    exact (hG _ (hL _ (getElem_mem _)).1).2.2 _ (hrl y hy _ (getElem_mem _))
  rw [hrows _ (length_map _) hz1, zipWith_map_right, zipWith_self] at n3
  obtain ⟨v1, e1⟩ := htr _ hz1
  obtain ⟨v2, e2⟩ := htr _ hz2
  refine ⟨_, by unfold bOdeFlow; rw [e1]; rfl, ?_, ?_, ?_⟩
  · simp [transpose102]
  · intro traj htraj z hz
    unfold transpose102 odeint2 at htraj
    simp only [length_map] at htraj
    obtain ⟨b, hb, rfl⟩ := mem_map.1 htraj
    rw [map_map] at hz
    obtain ⟨y, hy, rfl⟩ := mem_map.1 hz
    have hy' := n1 y (by rw [hF]; exact hy)
    rw [Function.comp, getD_eq_getElem _ _ (by rw [length_rowsOf]; exact mem_range.1 hb)]
    exact hrl y hy' _ (getElem_mem _)
  · unfold bOdeFlow
    rw [e2]
    show Except.ok _ = _
    congr 1
    unfold transpose102 odeint2
    simp only [length_map]
    rw [← hF, n3]
    refine ext_getElem (by simp) fun b h1 h2 => ?_
    have hb : b < L.length := by simpa using h1
    simp only [getElem_map, getElem_range, getElem_zipWith, map_map]
    refine map_congr_left fun y hy => ?_
    simp only [Function.comp]
    have hy' := n1 y hy
    rw [hBr y hy', getD_eq_getElem _ _ (by rw [hzl _ (length_rowsOf _ _ _)]; exact hb), getD_eq_getElem _ _ (by rw [length_rowsOf]; exact hb), getElem_zipWith]

theorem moved_index {α : Type} {G : DMat ℝ → Prop} {mv : DMat ℝ → α → α} {l l' : List α} (h : Forall₂ (fun x x' => ∃ M, G M ∧ x' = mv M x) l l') :
    ∃ L : List (DMat ℝ × α), (∀ p ∈ L, G p.1) ∧ l = L.map (fun p => p.2) ∧ l' = L.map fun p => mv p.1 p.2 := by
  induction h with
  | nil => exact ⟨[], by simp, rfl, rfl⟩
  | cons h1 _ ih =>
    obtain ⟨M, hM, rfl⟩ := h1
    obtain ⟨L, h2, rfl, rfl⟩ := ih
    exact ⟨(M, _) :: L, fun p hp => by
      rcases mem_cons.1 hp with rfl | hp
      · exact hM
      · exact h2 p hp, rfl, rfl⟩

/-- Orthogonal matrices keep the squared differences of two batches of trajectories. -/
theorem loss_moved {n : ℕ} (K : List (DMat ℝ × List (List ℝ) × List (List ℝ)))
    (hM : ∀ b ∈ K, b.1.IsSq n ∧ b.1.transpose.mul b.1 = DMat.one n)
    (hz : ∀ b ∈ K, (∀ z ∈ b.2.1, z.length = n) ∧ ∀ z ∈ b.2.2, z.length = n) :
    (((K.map fun b => b.2.1.map b.1.mulVec).map (map length) = (K.map fun b => b.2.2.map b.1.mulVec).map (map length)) ↔
      (K.map fun b => b.2.1).map (map length) = (K.map fun b => b.2.2).map (map length)) ∧
    ((K.map fun b => b.2.1).map (map length) = (K.map fun b => b.2.2).map (map length) →
      meanOf (zipWith (fun a b : ℝ => (a - b) ^ 2) (K.map fun b => b.2.1.map b.1.mulVec).flatten.flatten (K.map fun b => b.2.2.map b.1.mulVec).flatten.flatten) =
      meanOf (zipWith (fun a b : ℝ => (a - b) ^ 2) (K.map fun b => b.2.1).flatten.flatten (K.map fun b => b.2.2).flatten.flatten)) := by
  have hlen : ∀ (b : DMat ℝ × List (List ℝ) × List (List ℝ)), b ∈ K → ∀ l : List (List ℝ), (∀ w ∈ l, w.length = n) → (l.map b.1.mulVec).map length = l.map length := by
    intro b hb l hl
    rw [List.map_map]
    refine map_congr_left fun w hw => ?_
    rw [Function.comp, DMat.length_mulVec, (hM b hb).1.1, hl w hw]
  have s1 : (K.map fun b => b.2.1.map b.1.mulVec).map (map length) = (K.map fun b => b.2.1).map (map length) := by
    rw [List.map_map, List.map_map]
    exact map_congr_left fun b hb => hlen b hb _ (hz b hb).1
  have s2 : (K.map fun b => b.2.2.map b.1.mulVec).map (map length) = (K.map fun b => b.2.2).map (map length) := by
    rw [List.map_map, List.map_map]
    exact map_congr_left fun b hb => hlen b hb _ (hz b hb).2
  refine ⟨by rw [s1, s2], fun hsh => ?_⟩
  have hll : ∀ {P Q : List (List (List ℝ))}, P.map (map length) = Q.map (map length) →
      (zipWith (fun a b : ℝ => (a - b) ^ 2) P.flatten.flatten Q.flatten.flatten).length = Q.flatten.flatten.length := by
    intro P Q h
    rw [length_zipWith, length_flatten_eq (shapes_flatten h), min_self]
  have hsh' := s1.trans (hsh.trans s2.symm)
  unfold meanOf
  rw [hll hsh', hll hsh, rolloutSum hsh', rolloutSum hsh, length_flatten_eq (shapes_flatten s2)]
  refine congrArg (fun s => fdiv s _) ?_
  unfold batchDist
  congr 1
  rw [zipWith_map, zipWith_map, zipWith_self, zipWith_self]
  refine map_congr_left fun b hb => ?_
  rw [zipWith_map]
  congr 1
  have key : ∀ (u v : List (List ℝ)), (∀ w ∈ u, w.length = n) → (∀ w ∈ v, w.length = n) →
      zipWith (fun a c => sqDist (b.1.mulVec a) (b.1.mulVec c)) u v = zipWith sqDist u v := by
    intro u
    induction u with
    | nil => intro _ _ _; rfl
    | cons x u ih =>
      intro v hu hv
      cases v with
      | nil => rfl
      | cons y v =>
        rw [zipWith_cons_cons, zipWith_cons_cons, ih v (fun w hw => hu w (by simp [hw])) fun w hw => hv w (by simp [hw])]
        congr 1
        unfold sqDist
        rw [DMat.length_mulVec, (hM b hb).1.1, hu x (by simp)]
        exact orth_dist (hM b hb).1 (hM b hb).2 x y (hu x (by simp)) (hv y (by simp))
  exact key _ _ (hz b hb).1 (hz b hb).2

theorem sum_sq_range (a : List ℝ) : (a.map fun x => |x| ^ 2).sum = ∑ j ∈ Finset.range a.length, a.getD j 0 ^ 2 := by
  induction a with
  | nil => rfl
  | cons x a ih =>
    rw [map_cons, sum_cons, ih, length_cons, Finset.sum_range_succ', sq_abs, add_comm]
    simp

theorem rms_orth {n : ℕ} {M : DMat ℝ} (hM : M.IsSq n) (ho : M.transpose.mul M = DMat.one n) {x : List ℝ} (hx : x.length = n) : rms (M.mulVec x) = rms x := by
  have e : ((M.mulVec x).map fun x => |x| ^ 2).sum = (x.map fun x => |x| ^ 2).sum := by
    rw [sum_sq_range, sum_sq_range, DMat.length_mulVec, hM.1, hx]
    have := orth_dist hM ho x (replicate n 0) hx (by simp)
    have z : ∀ j, (replicate n (0 : ℝ)).getD j 0 = 0 := by
      intro j
      rw [getD_eq_getElem?_getD, getElem?_replicate]
      split <;> rfl
    have z' : ∀ j ∈ Finset.range n, (M.mulVec (replicate n (0 : ℝ))).getD j 0 = 0 := by
      intro j hj
      rw [DMat.getD_mulVec (by rw [hM.1]; exact Finset.mem_range.1 hj)]
      exact Finset.sum_eq_zero fun k _ => by rw [z, mul_zero]
    rw [Finset.sum_congr rfl fun j hj => by rw [z' j hj, sub_zero]] at this
    simpa only [z, sub_zero] using this
  unfold rms meanOf
  rw [e, length_map, length_map, DMat.length_mulVec, hM.1, hx]

theorem relErr_orth {n : ℕ} {M : DMat ℝ} (hM : M.IsSq n) (ho : M.transpose.mul M = DMat.one n) {x y : List ℝ} (hx : x.length = n) (hy : y.length = n) :
    relErr (M.mulVec x) (M.mulVec y) = relErr x y := by
  have e : subArr (M.mulVec x) (M.mulVec y) = M.mulVec (subArr x y) := by
    have l : (subArr x y).length = n := by simp [subArr, hx, hy]
    refine ext_getElem (by simp [subArr, DMat.length_mulVec]) fun i i1 i2 => ?_
    have hi : i < M.rows := by simpa [DMat.length_mulVec] using i2
    have g : ∀ (v : List ℝ) (h : i < (M.mulVec v).length), (M.mulVec v)[i] = ∑ k ∈ Finset.range M.cols, M.e i k * v.getD k 0 := by
      intro v h
      rw [← DMat.getD_mulVec hi, getD_eq_getElem _ _ h]
    rw [g]
    unfold subArr at i1 ⊢
    rw [getElem_zipWith, g, g, ← Finset.sum_sub_distrib]
    refine Finset.sum_congr rfl fun k hk => ?_
    have hk : k < n := hM.2 ▸ Finset.mem_range.1 hk
    rw [getD_eq_getElem _ _ (hx ▸ hk), getD_eq_getElem _ _ (hy ▸ hk), getD_eq_getElem _ _ (by simp [hx, hy, hk]), getElem_zipWith, mul_sub]
  unfold relErr
  rw [e, rms_orth hM ho hx, rms_orth hM ho hy, rms_orth hM ho (by simp [subArr, hx, hy])]

section
variable {Θ : Type} {odeint : Odeint} {n : ℕ} {G : DMat ℝ → Prop}

/-- The loss on moved trajectories is the loss on the trajectories. -/
theorem trajectoryLoss_moved {field : Θ → List ℝ → ℝ → Py (List ℝ)} (hG : ∀ M, G M → M.IsSq n ∧ M.transpose.mul M = DMat.one n)
    (hf : ∀ t ts, Forward ts → FlowMoves odeint (field t) n G ts) {mb mb' : TrajBatch} (h : MovedTrajs G n mb mb') (t : Θ) :
    trajectoryLoss odeint field n t mb' = trajectoryLoss odeint field n t mb := by
  obtain ⟨h1, h2⟩ := h
  obtain ⟨L, hL, rfl, rfl⟩ := moved_index (mv := fun M (x : (List ℝ × List ℝ) × List (List ℝ)) => ((M.mulVec x.1.1, x.1.2), x.2.map M.mulVec)) h2
  have hL1 : ∀ p ∈ L, p.2.1.1.length = n ∧ Forward p.2.1.2 ∧ ∀ z ∈ p.2.2, z.length = n := fun p hp => h1 p.2 (mem_map_of_mem hp)
  rcases eq_or_ne L [] with rfl | hne
  · rfl
  obtain ⟨ts, hts, e1⟩ : ∃ ts, Forward ts ∧ (L.map fun p => p.2.1.2).headD [] = ts := by
    obtain ⟨p, L, rfl⟩ := exists_cons_of_ne_nil hne
    exact ⟨p.2.1.2, (hL1 p (by simp)).2.1, rfl⟩
  obtain ⟨zs, f1, f2, f3, f4⟩ := hf t ts hts (L.map fun p => (p.1, p.2.1.1)) (by
    intro q hq
    obtain ⟨p, hp, rfl⟩ := mem_map.1 hq
    exact ⟨hL p hp, (hL1 p hp).1⟩)
  rw [map_map] at f1 f4
  rw [length_map] at f2
  obtain ⟨K, hK⟩ : ∃ K : List (DMat ℝ × List (List ℝ) × List (List ℝ)), K = zipWith (fun (p : DMat ℝ × (List ℝ × List ℝ) × List (List ℝ)) z => (p.1, z, p.2.2)) L zs := ⟨_, rfl⟩
  have g1 : zs = K.map fun b => b.2.1 := by
    rw [hK, map_zipWith]
    refine ext_getElem (by simp [f2]) fun i _ _ => by simp
  have g2 : (L.map fun p => p.2.2) = K.map fun b => b.2.2 := by
    rw [hK, map_zipWith]
    refine ext_getElem (by simp [f2]) fun i _ _ => by simp
  have g3 : zipWith (fun (p : DMat ℝ × List ℝ) traj => traj.map p.1.mulVec) (L.map fun p => (p.1, p.2.1.1)) zs = K.map fun b => b.2.1.map b.1.mulVec := by
    rw [hK, map_zipWith, zipWith_map_left]
  have g4 : (L.map fun p => p.2.2.map p.1.mulVec) = K.map fun b => b.2.2.map b.1.mulVec := by
    rw [hK, map_zipWith]
    refine ext_getElem (by simp [f2]) fun i _ _ => by simp
  have hKm : ∀ b ∈ K, ∃ p ∈ L, b.1 = p.1 ∧ b.2.2 = p.2.2 ∧ b.2.1 ∈ zs := by
    intro b hb
    rw [hK] at hb
    obtain ⟨i, hi, rfl⟩ := getElem_of_mem hb
    rw [getElem_zipWith]
    exact ⟨_, getElem_mem _, rfl, rfl, getElem_mem _⟩
  obtain ⟨k1, k2⟩ := loss_moved K (n := n) (fun b hb => by
      obtain ⟨p, hp, e, -⟩ := hKm b hb
      rw [e]
      exact hG _ (hL p hp)) (fun b hb => by
      obtain ⟨p, hp, -, e, e'⟩ := hKm b hb
      rw [e]
      exact ⟨f3 _ e', (hL1 p hp).2.2⟩)
  have e2 : ((L.map fun p => ((p.1.mulVec p.2.1.1, p.2.1.2), p.2.2.map p.1.mulVec)).map fun x => x.1.2).headD [] = ts := by rw [← e1, map_map]; rfl
  have e3 : ((L.map fun p => p.2).map fun x => x.1.2).headD [] = ts := by rw [← e1, map_map]; rfl
  have e4 : ((L.map fun p => ((p.1.mulVec p.2.1.1, p.2.1.2), p.2.2.map p.1.mulVec)).map fun x => x.2) = K.map fun b => b.2.2.map b.1.mulVec := by rw [← g4, map_map]; rfl
  have e5 : ((L.map fun p => p.2).map fun x => x.2) = K.map fun b => b.2.2 := by rw [← g2, map_map]; rfl
  unfold trajectoryLoss rolloutLoss
  rw [e2, e3, e4, e5]
  rw [show ((L.map fun p => p.2).map fun x => x.1.1) = L.map ((fun q => q.2) ∘ fun p => (p.1, p.2.1.1)) by rw [map_map]; rfl, f1]
  rw [show ((L.map fun p => ((p.1.mulVec p.2.1.1, p.2.1.2), p.2.2.map p.1.mulVec)).map fun x => x.1.1) = L.map ((fun q => q.1.mulVec q.2) ∘ fun p => (p.1, p.2.1.1)) by rw [map_map]; rfl, f4, g3, g1]
  show (if _ then _ else _ : Py _) = (if _ then _ else _ : Py _)
  by_cases hc : (K.map fun b => b.2.1).map (map length) = (K.map fun b => b.2.2).map (map length)
  · rw [if_neg (not_not.2 hc), if_neg (not_not.2 (k1.2 hc))]
    show Except.ok _ = Except.ok _
    rw [k2 hc]
  · rw [if_pos hc, if_pos fun h => hc (k1.1 h)]
    rfl

/-- The rollout error of moved initial states. -/
theorem rolloutMetric_moved {field : Θ → List ℝ → ℝ → Py (List ℝ)} {truth : List ℝ → ℝ → Py (List ℝ)} {long : List ℝ}
    (hG : ∀ M, G M → M.IsSq n ∧ M.transpose.mul M = DMat.one n)
    (hf : ∀ t, FlowMoves odeint (field t) n G long) (ht : FlowMoves odeint truth n G long) {mb mb' : TrajBatch} (h : MovedTrajs G n mb mb') (t : Θ) :
    rolloutMetric odeint field truth n long t mb' = rolloutMetric odeint field truth n long t mb := by
  obtain ⟨h1, h2⟩ := h
  obtain ⟨L, hL, rfl, rfl⟩ := moved_index (mv := fun M (x : (List ℝ × List ℝ) × List (List ℝ)) => ((M.mulVec x.1.1, x.1.2), x.2.map M.mulVec)) h2
  have hL2 : ∀ q ∈ L.map (fun p => (p.1, p.2.1.1)), G q.1 ∧ q.2.length = n := by
    intro q hq
    obtain ⟨p, hp, rfl⟩ := mem_map.1 hq
    exact ⟨hL p hp, (h1 p.2 (mem_map_of_mem hp)).1⟩
  obtain ⟨zs, f1, f2, f3, f4⟩ := hf t _ hL2
  obtain ⟨ws, w1, w2, w3, w4⟩ := ht _ hL2
  unfold rolloutMetric
  simp only [map_map, Function.comp_def] at f1 f4 w1 w4 ⊢
  rw [f1, f4, w1, w4]
  show Except.ok _ = Except.ok _
  congr 1
  unfold logRolloutError
  congr 3
  refine ext_getElem (by simp [f2, w2]) fun i i1 i2 => ?_
  rw [getElem_zipWith, getElem_zipWith, getElem_zipWith, getElem_zipWith, zipWith_map]
  have hi : i < L.length := by simpa [f2, w2] using i1
  obtain ⟨o1, o2⟩ := hG _ (hL _ (getElem_mem hi))
  refine ext_getElem (by simp) fun j j1 j2 => ?_
  rw [getElem_zipWith, getElem_zipWith]
  simp only [getElem_map]
  exact relErr_orth o1 o2 (f3 _ (getElem_mem _) _ (getElem_mem _)) (w3 _ (getElem_mem _) _ (getElem_mem _))

end

end Verif
