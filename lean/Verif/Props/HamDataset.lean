import Verif.Model.HamDataset
import Verif.Props.DynamicsCases
import Verif.Props.Errors
import Verif.Props.Losses

/-!
# C102: trajectory datasets
-/
namespace Verif
open List Set

theorem timeGrid_forward (stop : ℝ) {dt : ℝ} (hdt : 0 < dt) : Forward (timeGrid stop dt) := by
  intro t ht
  obtain ⟨k, -, rfl⟩ := mem_map.1 ht
  have h0 : (timeGrid stop dt).headD 0 = 0 := by
    unfold timeGrid
    cases arangeLen stop dt with
    | zero => rfl
    | succ n => rw [range_succ_eq_map]; simp
  rw [h0]
  positivity

theorem timeGrid_eq (c : ℕ) {dt : ℝ} (hdt : 0 < dt) : timeGrid (c * dt) dt = (range c).map fun k : ℕ => (k : ℝ) * dt := by
  rw [timeGrid, C86_time_grid c dt hdt]

theorem headD_grid (c : ℕ) (dt : ℝ) : ((range c).map fun k : ℕ => (k : ℝ) * dt).headD 0 = 0 := by
  cases c with
  | zero => rfl
  | succ n => rw [range_succ_eq_map]; simp

/-- A chunk of a rollout on a regular grid is a rollout. -/
theorem Rollout.chunk {n : ℕ} {f : List ℝ → List ℝ} {z0 : List ℝ} {dt : ℝ} (hdt : 0 < dt) {m s c : ℕ} (hc : c ≠ 0) (h : s + c ≤ m) {zs : List (List ℝ)}
    (hr : Rollout n f z0 ((range m).map fun k : ℕ => (k : ℝ) * dt) zs) :
    Rollout n f (((zs.drop s).take c).headD []) ((range c).map fun k : ℕ => (k : ℝ) * dt) ((zs.drop s).take c) := by
  obtain ⟨z, h1, h2, rfl⟩ := hr
  rw [headD_grid] at h1 h2
  have e : ((((range m).map fun k : ℕ => (k : ℝ) * dt).map fun t => List.ofFn (z t)).drop s).take c = (range c).map fun k => List.ofFn (z ((k + s : ℕ) * dt)) := by
    refine ext_getElem (by simp; omega) fun i h1 h2 => ?_
    simp [Nat.add_comm]
  rw [e]
  refine ⟨fun t => z (t + s * dt), ?_, ?_, ?_⟩
  · rw [headD_grid]
    cases c with
    | zero => simp at hc
    | succ c => rw [range_succ_eq_map]; simp
  · rw [headD_grid]
    intro b hb t ht
    obtain ⟨k, hk, rfl⟩ := mem_map.1 hb
    have hs : (0 : ℝ) ≤ s * dt := by positivity
    have := h2 (((k + s : ℕ) : ℝ) * dt) (mem_map.2 ⟨k + s, by rw [List.mem_range] at *; omega, rfl⟩) (t + s * dt)
      ⟨by linarith [ht.1], by push_cast; nlinarith [ht.2]⟩
    have hsh : HasDerivWithinAt (fun t : ℝ => t + s * dt) 1 (Icc 0 ((k : ℝ) * dt)) t := ((hasDerivAt_id t).add_const _).hasDerivWithinAt
    have hm : MapsTo (fun t : ℝ => t + s * dt) (Icc 0 ((k : ℝ) * dt)) (Icc 0 (((k + s : ℕ) : ℝ) * dt)) := fun u hu =>
      ⟨by linarith [hu.1], by push_cast; nlinarith [hu.2]⟩
    have := HasDerivWithinAt.scomp (h := fun t : ℝ => t + s * dt) t this hsh hm
    simpa [Function.comp_def] using this
  · rw [map_map]
    refine map_congr_left fun k _ => ?_
    simp only [Function.comp, Nat.cast_add, add_mul]

section
variable {d : ℕ} {H : List ℝ → ℝ} {grad : List ℝ → List ℝ} {odeint : Odeint}

/-- The integrator is exact for the Hamiltonian field, for single states and for batches. -/
structure Integrates (odeint : Odeint) (d : ℕ) (grad : List ℝ → List ℝ) : Prop where
  lipschitz : LocallyLipschitz (asMap (d + d) fun x => total (fun z _ => hamiltonianDynamics grad z) x 0)
  one : ∀ ts, Forward ts → odeint.Exact (d + d) (total fun z _ => hamiltonianDynamics grad z) ts
  batch : ∀ bs ts, Forward ts → odeint.Exact (bs * (d + d))
    (fun y t => ((rowsOf (d + d) bs y).map fun z => total (fun z _ => hamiltonianDynamics grad z) z t).flatten) ts

theorem flow_rollout (hg : IsGrad (d + d) H grad) (hi : Integrates odeint d grad) {z ts : List ℝ} (hz : z.length = d + d) (hts : Forward ts) :
    ∃ zs, hamiltonianFlow odeint grad z ts = .ok zs ∧ Rollout (d + d) (fun x => total (fun z _ => hamiltonianDynamics grad z) x 0) z ts zs :=
  ⟨_, by unfold hamiltonianFlow; rw [dynamics_ok hg hz]; rfl, hi.one ts hts (fun _ _ _ => rfl) z hz⟩

theorem flow_of_rollout (hg : IsGrad (d + d) H grad) (hi : Integrates odeint d grad) {z ts : List ℝ} (hz : z.length = d + d) (hts : Forward ts) {zs : List (List ℝ)}
    (h : Rollout (d + d) (fun x => total (fun z _ => hamiltonianDynamics grad z) x 0) z ts zs) : hamiltonianFlow odeint grad z ts = .ok zs := by
  obtain ⟨ws, e, h'⟩ := flow_rollout hg hi hz hts
  rw [e, C92_unique hi.lipschitz hts h' h]

theorem Rollout.lengths {n : ℕ} {f : List ℝ → List ℝ} {z0 ts : List ℝ} {zs : List (List ℝ)} (h : Rollout n f z0 ts zs) :
    zs.length = ts.length ∧ ∀ z ∈ zs, z.length = n := by
  obtain ⟨z, -, -, rfl⟩ := h
  refine ⟨by simp, fun z hz => ?_⟩
  obtain ⟨t, -, rfl⟩ := mem_map.1 hz
  simp

/-- The initial conditions drawn for a dataset: batches of the size asked for, of states of length `n`. -/
def GoodSamples (n nSystems : ℕ) (sample : ℕ → List (List ℝ)) : Prop := ∀ b, (sample b).length = min 100 nSystems ∧ ∀ z ∈ sample b, z.length = n

/-- **C102, items.** A dataset of `n_systems` chunks, each drawn from its own trajectory: if the number of time points of a trajectory is
a multiple of `chunk_len`, then every item is an initial state, the `chunk_len` times `0, dt, 2dt, …`, and the solution of Hamilton's
equations from that state at those times, although the chunk was cut from the middle of a longer rollout.  The energy is the same
at all its points. -/
theorem C102_items (hg : IsGrad (d + d) H grad) (hi : Integrates odeint d grad) {sample : ℕ → List (List ℝ)} {nSystems chunkLen m : ℕ} {dt time : ℝ} {idx : List ℕ}
    (hn : nSystems ≠ 0) (hs : GoodSamples (d + d) nSystems sample) (hdt : 0 < dt) (hc : chunkLen ≠ 0) (hm : m ≠ 0) (hlen : arangeLen time dt = m * chunkLen)
    (hidx : idx.length = nSystems) (hdraw : ∀ i ∈ idx, i < m) :
    ∃ ds, hamDataset odeint grad (d + d) sample idx nSystems chunkLen dt time = .ok ds ∧ ds.Zs.length = nSystems ∧
      ds.T = (range chunkLen).map (fun k : ℕ => (k : ℝ) * dt) ∧ ds.Tlong = (range (m * chunkLen)).map (fun k : ℕ => (k : ℝ) * dt) ∧
      ∀ i < nSystems, ∃ z0 target, ds.getItem i = .ok ((z0, ds.T), target) ∧ z0.length = d + d ∧ target.length = chunkLen ∧
        hamiltonianFlow odeint grad z0 ds.T = .ok target ∧ ∀ z ∈ target, z.length = d + d ∧ H z = H z0 := by
  have hgrid : timeGrid time dt = (range (m * chunkLen)).map fun k : ℕ => (k : ℝ) * dt := by rw [timeGrid, hlen]
  have hfw := timeGrid_forward time hdt
  have hgen : ∀ b, ∃ l, bHamiltonianFlow odeint grad (d + d) (sample b) (timeGrid time dt) = .ok l ∧ l.length = min 100 nSystems := by
    intro b
    obtain ⟨zs, e, hl, -⟩ := C93_hamiltonian hg (hs b).2 hi.lipschitz hfw (hi.one _ hfw) (hi.batch _ _ hfw)
    exact ⟨zs, e, by rw [hl, (hs b).1]⟩
  obtain ⟨zs, e1, hz1, hz2⟩ := C86_count _ nSystems hn hgen
  -- every trajectory is a rollout
  have hroll : ∀ z ∈ zs, ∃ z0 : List ℝ, z0.length = d + d ∧ Rollout (d + d) (fun x => total (fun z _ => hamiltonianDynamics grad z) x 0) z0 (timeGrid time dt) z := by
    intro z hz
    obtain ⟨b, l, e, hzl⟩ := hz2 z hz
    obtain ⟨l', e', hl, hrow⟩ := C93_hamiltonian hg (hs b).2 hi.lipschitz hfw (hi.one _ hfw) (hi.batch _ _ hfw)
    obtain rfl : l = l' := Except.ok.inj (e.symm.trans e')
    obtain ⟨k, hk, rfl⟩ := getElem_of_mem hzl
    have hk' : k < (sample b).length := by omega
    have := hrow k hk'
    rw [getD_eq_getElem _ _ hk', getD_eq_getElem _ _ hk] at this
    have h0 : (sample b)[k].length = d + d := (hs b).2 _ (getElem_mem hk')
    obtain ⟨ws, e2, h2⟩ := flow_rollout hg hi h0 hfw
    rw [e2] at this
    exact ⟨_, h0, (Except.ok.inj this) ▸ h2⟩
  have hzl : ∀ z ∈ zs, z.length = m * chunkLen := by
    intro z hz
    obtain ⟨z0, -, h⟩ := hroll z hz
    rw [h.lengths.1, hgrid]; simp
  have hq : m * chunkLen / chunkLen = m := Nat.mul_div_cancel _ (Nat.pos_of_ne_zero hc)
  obtain ⟨out, e2, ho, hout⟩ := C86_chunks_partial zs (m * chunkLen) chunkLen idx hc (Nat.mul_ne_zero hm hc) ⟨m, Nat.mul_comm _ _⟩ hzl (by rw [hidx, hz1])
    (by rw [hq]; exact hdraw)
  refine ⟨⟨out, timeGrid (chunkLen * dt) dt, timeGrid time dt⟩, ?_, by rw [ho, hz1], timeGrid_eq _ hdt, hgrid, ?_⟩
  · unfold hamDataset makeChunks
    have hgl : (timeGrid time dt).length = m * chunkLen := by rw [hgrid]; simp
    rw [e1, hgl]
    show (chunkTrainingData zs (m * chunkLen) chunkLen idx >>= _) = _
    rw [e2]; rfl
  · intro i hi'
    have hiz : i < zs.length := by rw [hz1]; exact hi'
    have hio : i < out.length := by rw [ho]; exact hiz
    have hii : i < idx.length := by rw [hidx]; exact hi'
    obtain ⟨h1, h2⟩ := hout i hiz hio
    obtain ⟨w0, hw0, hw⟩ := hroll _ (getElem_mem hiz)
    have hlt : idx[i] < m := hdraw _ (getElem_mem hii)
    have hle : idx[i] * chunkLen + chunkLen ≤ m * chunkLen := by
      have : (idx[i] + 1) * chunkLen ≤ m * chunkLen := Nat.mul_le_mul_right _ hlt
      rwa [Nat.add_mul, Nat.one_mul] at this
    rw [hgrid] at hw
    have hch := hw.chunk hdt hc hle
    rw [← h2] at hch
    obtain ⟨x, xs, hx⟩ : ∃ x xs, out[i] = x :: xs := by
      cases h : out[i] with
      | nil => rw [h] at h1; exact absurd h1.symm hc
      | cons x xs => exact ⟨x, xs, rfl⟩
    rw [hx] at hch h1
    have hls := hch.lengths
    have hxl : x.length = d + d := hls.2 x (by simp)
    have hT : Forward (timeGrid (chunkLen * dt) dt) := timeGrid_forward _ hdt
    have hfl : hamiltonianFlow odeint grad x (timeGrid (chunkLen * dt) dt) = .ok (x :: xs) := by
      refine flow_of_rollout hg hi hxl hT ?_
      rw [timeGrid_eq _ hdt]; exact hch
    refine ⟨x, x :: xs, ?_, hxl, h1, hfl, fun z hz => ⟨hls.2 z hz, C92_energy hg (hi.one _ hT) hT hxl hfl z hz⟩⟩
    simp only [HamDataset.getItem]
    rw [getElem?_eq_getElem hio, hx]

end

/-! ## Losses -/

/-- `|u - v|²` -/
def sqDist (u v : List ℝ) : ℝ := ∑ j ∈ Finset.range u.length, (u.getD j 0 - v.getD j 0) ^ 2

/-- The squared distance of two batches of trajectories: the sum over rows and times. -/
def batchDist (P Q : List (List (List ℝ))) : ℝ := ((zipWith (fun p q => (zipWith sqDist p q).sum) P Q)).sum

theorem zipWith_flatten {α β γ : Type} (f : α → β → γ) : ∀ (a : List (List α)) (b : List (List β)), a.map length = b.map length →
    zipWith f a.flatten b.flatten = (zipWith (zipWith f) a b).flatten
  | [], [], _ => rfl
  | [], _ :: _, h => by simp at h
  | _ :: _, [], h => by simp at h
  | x :: a, y :: b, h => by
    rw [map_cons, map_cons, cons.injEq] at h
    rw [flatten_cons, flatten_cons, zipWith_append h.1, zipWith_flatten f a b h.2]
    rfl

theorem sum_sqDist {u v : List ℝ} (h : u.length = v.length) : (zipWith (fun a b => (a - b) ^ 2) u v).sum = sqDist u v := by
  unfold sqDist
  rw [Finset.sum_range, ← List.sum_ofFn]
  congr 1
  refine ext_getElem (by simp [h]) fun i h1 h2 => ?_
  have hu : i < u.length := by simpa using h2
  simp [hu, h ▸ hu]

theorem sum_flatten_zipWith (p q : List (List ℝ)) (h : p.map length = q.map length) :
    (zipWith (zipWith fun a b : ℝ => (a - b) ^ 2) p q).flatten.sum = (zipWith sqDist p q).sum := by
  induction p generalizing q with
  | nil => cases q <;> rfl
  | cons u p ih =>
    cases q with
    | nil => simp at h
    | cons v q =>
      rw [map_cons, map_cons, cons.injEq] at h
      rw [zipWith_cons_cons, zipWith_cons_cons, flatten_cons, sum_append, sum_cons, ih q h.2, sum_sqDist h.1]

theorem length_flatten_eq {α β : Type} {p : List (List α)} {q : List (List β)} (h : p.map length = q.map length) : p.flatten.length = q.flatten.length := by
  rw [length_flatten, length_flatten, h]

theorem shapes_flatten {α β : Type} : ∀ {P : List (List (List α))} {Q : List (List (List β))}, P.map (map length) = Q.map (map length) →
    P.flatten.map length = Q.flatten.map length := by
  intro P Q h
  rw [map_flatten, map_flatten, h]

theorem rolloutSum {P Q : List (List (List ℝ))} (h : P.map (map length) = Q.map (map length)) :
    (zipWith (fun a b : ℝ => (a - b) ^ 2) P.flatten.flatten Q.flatten.flatten).sum = batchDist P Q := by
  rw [zipWith_flatten _ _ _ (shapes_flatten h), sum_flatten_zipWith _ _ (shapes_flatten h), zipWith_flatten _ _ _ (by
    have := congrArg (map length) h
    simpa [map_map, Function.comp_def] using this)]
  clear h
  unfold batchDist
  induction P generalizing Q with
  | nil => cases Q <;> rfl
  | cons p P ih =>
    cases Q with
    | nil => rfl
    | cons q Q => simp [ih]

/-- **C102, the loss.** When the predicted trajectories have the shape of the given ones, the training loss is the mean squared difference over
batch, times and coordinates, and it is zero exactly for perfect predictions. -/
theorem C102_loss {odeint : Odeint} {dynamics : List ℝ → ℝ → Py (List ℝ)} {n : ℕ} {z0 ts : List (List ℝ)} {true pred : List (List (List ℝ))}
    (hp : bOdeFlow odeint dynamics n z0 (ts.headD []) = .ok pred) (hsh : pred.map (map length) = true.map (map length)) (hne : true.flatten.flatten ≠ []) :
    rolloutLoss odeint dynamics n z0 ts true = .ok (some (batchDist pred true / true.flatten.flatten.length)) ∧
      (batchDist pred true / true.flatten.flatten.length = 0 ↔ pred = true) := by
  have hl : pred.flatten.flatten.length = true.flatten.flatten.length := length_flatten_eq (shapes_flatten hsh)
  have hlz : (zipWith (fun a b : ℝ => (a - b) ^ 2) pred.flatten.flatten true.flatten.flatten).length = true.flatten.flatten.length := by
    rw [length_zipWith, hl, min_self]
  have hpos : (true.flatten.flatten.length : ℝ) ≠ 0 := by exact_mod_cast fun e => hne (length_eq_zero_iff.1 e)
  have hval : rolloutLoss odeint dynamics n z0 ts true = .ok (some (batchDist pred true / true.flatten.flatten.length)) := by
    unfold rolloutLoss
    rw [hp]
    show (if _ then _ else _ : Py _) = _
    rw [if_neg (by simpa using hsh)]
    show Except.ok (meanOf _) = _
    unfold meanOf fdiv
    rw [hlz, if_neg hpos, rolloutSum hsh]
  refine ⟨hval, ?_⟩
  rw [div_eq_zero_iff, or_iff_left hpos, ← rolloutSum hsh]
  refine ⟨fun h => ?_, ?_⟩
  · have hz : ∀ x ∈ zipWith (fun a b : ℝ => a - b) pred.flatten.flatten true.flatten.flatten, x = 0 := by
      rw [← sum_sq_eq_zero, map_zipWith]; exact h
    have e1 : pred.flatten.flatten = true.flatten.flatten := by
      refine ext_getElem hl fun i h1 h2 => ?_
      have := hz _ (getElem_mem (l := zipWith (fun a b : ℝ => a - b) pred.flatten.flatten true.flatten.flatten) (n := i) (by rw [length_zipWith]; exact lt_min h1 h2))
      rw [getElem_zipWith] at this
      linarith
    have e2 : pred.flatten = true.flatten := List.eq_iff_flatten_eq.2 ⟨e1, shapes_flatten hsh⟩
    refine List.eq_iff_flatten_eq.2 ⟨e2, ?_⟩
    have := congrArg (map length) hsh
    simpa [map_map, Function.comp_def] using this
  · rintro rfl
    have : ∀ l : List ℝ, (zipWith (fun a b : ℝ => (a - b) ^ 2) l l).sum = 0 := fun l => by
      induction l with
      | nil => rfl
      | cons x l ih => simp [ih]
    exact this _

section
variable {d : ℕ} {H : List ℝ → ℝ} {grad : List ℝ → List ℝ} {odeint : Odeint}

theorem bflow_rows {α : Type} (hg : IsGrad (d + d) H grad) (hi : Integrates odeint d grad) {ts : List ℝ} (hts : Forward ts) {L : List α} {z : α → List ℝ}
    {Y : α → List (List ℝ)} (hz : ∀ a ∈ L, (z a).length = d + d) (hY : ∀ a ∈ L, hamiltonianFlow odeint grad (z a) ts = .ok (Y a)) :
    bHamiltonianFlow odeint grad (d + d) (L.map z) ts = .ok (L.map Y) := by
  obtain ⟨zs, e, hl, h⟩ := C93_hamiltonian hg (z0 := L.map z) (by simpa using hz) hi.lipschitz hts (hi.one _ hts) (hi.batch _ _ hts)
  rw [e]
  refine congrArg _ (ext_getElem (by simpa using hl) fun i h1 h2 => ?_)
  have hL : i < L.length := by simpa using h2
  have := h i (by simpa using hL)
  rw [getD_eq_getElem _ _ (by simpa using hL), getD_eq_getElem _ _ h1, getElem_map, hY _ (getElem_mem hL)] at this
  rw [getElem_map]
  exact (Except.ok.inj this).symm

/-- **C102, the true model.** On every minibatch of items of the dataset the Hamiltonian that generated it has loss zero. -/
theorem C102_true_model (hg : IsGrad (d + d) H grad) (hi : Integrates odeint d grad) {sample : ℕ → List (List ℝ)} {nSystems chunkLen m : ℕ} {dt time : ℝ} {idx : List ℕ}
    (hd : d ≠ 0) (hs : GoodSamples (d + d) nSystems sample) (hdt : 0 < dt) (hc : chunkLen ≠ 0) (hm : m ≠ 0) (hlen : arangeLen time dt = m * chunkLen)
    (hidx : idx.length = nSystems) (hdraw : ∀ i ∈ idx, i < m) {js : List ℕ} (hjs : js ≠ []) (hj : ∀ j ∈ js, j < nSystems) :
    ∃ ds items, hamDataset odeint grad (d + d) sample idx nSystems chunkLen dt time = .ok ds ∧ js.mapM ds.getItem = .ok items ∧ items.length = js.length ∧
      rolloutLoss odeint (fun z _ => hamiltonianDynamics grad z) (d + d) (items.map fun i => i.1.1) (items.map fun i => i.1.2) (items.map fun i => i.2) = .ok (some 0) := by
  have hn : nSystems ≠ 0 := by
    obtain ⟨j, js, rfl⟩ := exists_cons_of_ne_nil hjs
    have := hj j (by simp)
    omega
  obtain ⟨ds, e, -, hT, -, hit⟩ := C102_items hg hi hn hs hdt hc hm hlen hidx hdraw
  have hTf : Forward ds.T := by rw [hT, ← timeGrid_eq _ hdt]; exact timeGrid_forward _ hdt
  obtain ⟨items, h1, h2, h3⟩ : ∃ items, js.mapM ds.getItem = .ok items ∧ items.length = js.length ∧ ∀ i ∈ items, i.1.1.length = d + d ∧ i.1.2 = ds.T ∧
      i.2.length = chunkLen ∧ hamiltonianFlow odeint grad i.1.1 ds.T = .ok i.2 ∧ ∀ z ∈ i.2, z.length = d + d := by
    clear hjs
    induction js with
    | nil => exact ⟨[], rfl, rfl, by simp⟩
    | cons j js ih =>
      obtain ⟨items, h1, h2, h3⟩ := ih fun k hk => hj k (by simp [hk])
      obtain ⟨z0, target, g1, g2, g3, g4, g5⟩ := hit j (hj j (by simp))
      refine ⟨((z0, ds.T), target) :: items, by rw [List.mapM_cons, g1, h1]; rfl, by simp [h2], ?_⟩
      intro i hi'
      rcases mem_cons.1 hi' with rfl | hi'
      · exact ⟨g2, rfl, g3, g4, fun z hz => (g5 z hz).1⟩
      · exact h3 i hi'
  refine ⟨ds, items, e, h1, h2, ?_⟩
  obtain ⟨it, its, rfl⟩ : ∃ it its, items = it :: its := exists_cons_of_ne_nil fun h => hjs (length_eq_zero_iff.1 (by rw [← h2, h]; rfl))
  have hts : ((it :: its).map fun i => i.1.2).headD [] = ds.T := (h3 it (by simp)).2.1
  have hp : bOdeFlow odeint (fun z _ => hamiltonianDynamics grad z) (d + d) ((it :: its).map fun i => i.1.1) (((it :: its).map fun i => i.1.2).headD [])
      = .ok ((it :: its).map fun i => i.2) := by
    rw [hts]
    exact bflow_rows hg hi hTf (fun a ha => (h3 a ha).1) fun a ha => (h3 a ha).2.2.2.1
  have hne : ((it :: its).map fun i => i.2).flatten.flatten ≠ [] := by
    obtain ⟨-, -, g3, -, g5⟩ := h3 it (by simp)
    obtain ⟨y, ys, hy⟩ := exists_cons_of_ne_nil (fun h => hc (by rw [← g3, h]; rfl) : it.2 ≠ [])
    have hyl := g5 y (by rw [hy]; simp)
    obtain ⟨x, xs, rfl⟩ := exists_cons_of_ne_nil (fun h => by rw [h] at hyl; simp at hyl; omega : y ≠ [])
    simp [hy]
  obtain ⟨q1, q2⟩ := C102_loss hp rfl hne
  rw [q1, q2.2 rfl]

/-- **C102, symmetric models.** If the Hamiltonian of the model is invariant, then moving the initial states and targets of a minibatch
by symmetries that are symplectic and orthogonal leaves its loss as it is. -/
theorem C102_loss_symmetric (hg : IsGrad (d + d) H grad) (hi : Integrates odeint d grad) {ts : List ℝ} (hts : Forward ts) (batch : List (DMat ℝ × List ℝ × List (List ℝ)))
    (hM : ∀ b ∈ batch, Symplectic d b.1 ∧ b.1.transpose.mul b.1 = DMat.one (d + d) ∧ ∀ x : List ℝ, x.length = d + d → H (b.1.mulVec x) = H x)
    (hz : ∀ b ∈ batch, b.2.1.length = d + d ∧ ∀ z ∈ b.2.2, z.length = d + d) :
    rolloutLoss odeint (fun z _ => hamiltonianDynamics grad z) (d + d) (batch.map fun b => b.1.mulVec b.2.1) (batch.map fun _ => ts) (batch.map fun b => b.2.2.map b.1.mulVec)
      = rolloutLoss odeint (fun z _ => hamiltonianDynamics grad z) (d + d) (batch.map fun b => b.2.1) (batch.map fun _ => ts) (batch.map fun b => b.2.2) := by
  obtain ⟨Y, hY⟩ : ∃ Y : List ℝ → List (List ℝ), ∀ z : List ℝ, z.length = d + d → hamiltonianFlow odeint grad z ts = .ok (Y z) ∧ ∀ w ∈ Y z, w.length = d + d := by
    refine ⟨fun z => (hamiltonianFlow odeint grad z ts).toOption.getD [], fun z hz => ?_⟩
    obtain ⟨zs, e, h⟩ := flow_rollout hg hi hz hts
    simp only [e]
    exact ⟨rfl, h.lengths.2⟩
  have hYM : ∀ b ∈ batch, hamiltonianFlow odeint grad (b.1.mulVec b.2.1) ts = .ok ((Y b.2.1).map b.1.mulVec) := by
    intro b hb
    obtain ⟨zs, e1, -, e2⟩ := C92_hamiltonian hg (hM b hb).1 (hM b hb).2.2 (hi.one _ hts) hts hi.lipschitz (hz b hb).1
    rw [(hY _ (hz b hb).1).1] at e1
    rw [e2, Except.ok.inj e1]
  rcases eq_or_ne batch [] with rfl | hB
  · rfl
  obtain ⟨B, rfl⟩ : ∃ B, B = batch := ⟨_, rfl⟩
  have hhd : (B.map fun _ => ts).headD [] = ts := by
    obtain ⟨b, B, rfl⟩ := exists_cons_of_ne_nil hB
    rfl
  unfold rolloutLoss
  rw [hhd, show bOdeFlow odeint (fun z _ => hamiltonianDynamics grad z) (d + d) (B.map fun b => b.1.mulVec b.2.1) ts = .ok (B.map fun b => (Y b.2.1).map b.1.mulVec) from
    bflow_rows hg hi hts (fun a ha => by rw [DMat.length_mulVec, (hM a ha).1.1.1]) hYM,
    show bOdeFlow odeint (fun z _ => hamiltonianDynamics grad z) (d + d) (B.map fun b => b.2.1) ts = .ok (B.map fun b => Y b.2.1) from
    bflow_rows hg hi hts (fun a ha => (hz a ha).1) fun a ha => (hY _ (hz a ha).1).1]
  have hlen : ∀ (b : DMat ℝ × List ℝ × List (List ℝ)), b ∈ B → ∀ l : List (List ℝ), (∀ w ∈ l, w.length = d + d) → (l.map b.1.mulVec).map length = l.map length := by
    intro b hb l hl
    rw [List.map_map]
    refine map_congr_left fun w hw => ?_
    rw [Function.comp, DMat.length_mulVec, (hM b hb).1.1.1, hl w hw]
  have s1 : (B.map fun b => (Y b.2.1).map b.1.mulVec).map (map length) = (B.map fun b => Y b.2.1).map (map length) := by
    rw [List.map_map, List.map_map]
    exact map_congr_left fun b hb => hlen b hb _ (hY _ (hz b hb).1).2
  have s2 : (B.map fun b => b.2.2.map b.1.mulVec).map (map length) = (B.map fun b => b.2.2).map (map length) := by
    rw [List.map_map, List.map_map]
    exact map_congr_left fun b hb => hlen b hb _ (hz b hb).2
  show (if _ then _ else _ : Py _) = (if _ then _ else _ : Py _)
  rw [s1, s2]
  split_ifs with hsh
  · rfl
  rw [not_not] at hsh
  show Except.ok (meanOf _) = Except.ok (meanOf _)
  have hll : ∀ {P Q : List (List (List ℝ))}, P.map (map length) = Q.map (map length) →
      (zipWith (fun a b : ℝ => (a - b) ^ 2) P.flatten.flatten Q.flatten.flatten).length = Q.flatten.flatten.length := by
    intro P Q h
    rw [length_zipWith, length_flatten_eq (shapes_flatten h), min_self]
  have hsh' := s1.trans (hsh.trans s2.symm)
  unfold meanOf
  rw [hll hsh', hll hsh, rolloutSum hsh', rolloutSum hsh, length_flatten_eq (shapes_flatten s2)]
  refine congrArg (fun s => Except.ok (fdiv s _)) ?_
  unfold batchDist
  congr 1
  rw [zipWith_map, zipWith_map, zipWith_self, zipWith_self]
  refine map_congr_left fun b hb => ?_
  rw [zipWith_map]
  congr 1
  have key : ∀ (u v : List (List ℝ)), (∀ w ∈ u, w.length = d + d) → (∀ w ∈ v, w.length = d + d) →
      zipWith (fun a c => sqDist (b.1.mulVec a) (b.1.mulVec c)) u v = zipWith sqDist u v := by
    intro u
    induction u with
    | nil => intro _ _ _; rfl
    | cons x u ih =>
      intro v hu hv
      cases v with
      | nil => rfl
      | cons y v =>
        rw [zipWith_cons_cons, zipWith_cons_cons, ih v (fun w hw => hu w (by simp [hw])) fun w hw => hv w (by simp [hw])]
        congr 1
        unfold sqDist
        rw [DMat.length_mulVec, (hM b hb).1.1.1, hu x (by simp)]
        exact orth_dist (hM b hb).1.1 (hM b hb).2.1 x y (hu x (by simp)) (hv y (by simp))
  exact key _ _ (hY _ (hz b hb).1).2 (hz b hb).2

end

/-- Harmonic oscillators. -/
theorem osc_integrates (d : ℕ) : Integrates rotOdeint d id := ⟨osc_lipschitz d, fun ts _ => osc_rot_exact d ts, fun bs ts _ => osc_batch_exact d bs ts⟩

theorem arangeLen_mul (m : ℕ) {dt : ℝ} (hdt : 0 < dt) : arangeLen (m * dt) dt = m := by
  have := congrArg length (timeGrid_eq m hdt)
  simpa [timeGrid] using this

/-- C102: three oscillators observed for 6 steps of 1/5, cut into chunks of 3 steps. -/
example : ∃ ds items, hamDataset rotOdeint id (1 + 1) (fun b => [[1, 0], [0, 2], [1, b]]) [1, 0, 1] 3 3 (1 / 5) (6 / 5) = .ok ds ∧ [2, 0].mapM ds.getItem = .ok items ∧
    items.length = 2 ∧
      rolloutLoss rotOdeint (fun z _ => hamiltonianDynamics id z) (1 + 1) (items.map fun i => i.1.1) (items.map fun i => i.1.2) (items.map fun i => i.2) = .ok (some 0) := by
  have h6 : arangeLen (6 / 5) (1 / 5 : ℝ) = 2 * 3 := by
    have := arangeLen_mul 6 (dt := 1 / 5) (by norm_num)
    rw [show ((6 : ℕ) : ℝ) * (1 / 5) = 6 / 5 by norm_num] at this
    exact this
  exact C102_true_model (osc_grad 2) (osc_integrates 1) one_ne_zero (fun b => ⟨rfl, by simp⟩) (by norm_num) (by norm_num) two_ne_zero h6 rfl (by simp) (by simp) (by simp)

/-- C102, symmetric models: the oscillator rotated by `J` (position to momentum), with a wrong target for its first state. -/
example : rolloutLoss rotOdeint (fun z _ => hamiltonianDynamics id z) (1 + 1) [(sympMat 1).mulVec [1, 0]] [[0]] [[(sympMat 1).mulVec [2, 3]]]
    = rolloutLoss rotOdeint (fun z _ => hamiltonianDynamics id z) (1 + 1) [[1, 0]] [[0]] [[[2, 3]]] := by
  have := C102_loss_symmetric (osc_grad 2) (osc_integrates 1) (ts := [0]) (by simp [Forward]) [(sympMat 1, [1, 0], [[2, 3]])] ?_ (by simp)
  · exact this
  · intro b hb
    obtain rfl : b = (sympMat 1, [1, 0], [[2, 3]]) := by simpa using hb
    refine ⟨⟨⟨rfl, rfl⟩, DMat.ext rfl rfl fun i j hi hj => ?_⟩, DMat.ext rfl rfl fun i j hi hj => ?_, fun x hx => ?_⟩
    · have hi : i < 2 := hi
      have hj : j < 2 := hj
      interval_cases i <;> interval_cases j <;> simp [sympMat, DMat.mul, DMat.transpose, DMat.of, DMat.e, Finset.sum_range_succ]
    · have hi : i < 2 := hi
      have hj : j < 2 := hj
      interval_cases i <;> interval_cases j <;> simp [sympMat, DMat.mul, DMat.transpose, DMat.of, DMat.e, DMat.one, Finset.sum_range_succ]
    · match x, hx with
      | [q, p], _ =>
        show oscH ((sympMat 1).mulVec ([q] ++ [p])) = _
        rw [sympMat_mulVec (d := 1) (q := [q]) (p := [p]) rfl rfl]
        simp [oscH, add_comm]

end Verif
