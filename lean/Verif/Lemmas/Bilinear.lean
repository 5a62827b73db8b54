import Verif.Lemmas.SetG
import Verif.Lemmas.RShift
import Verif.Lemmas.AsDict
import Verif.Lemmas.DenseRing

/-! `bilinear_weights` and `BiLinear`. -/
namespace Verif
open List
variable {W : World} {R : Type} [CommRing R]

theorem range_mul (m s : ℕ) : range (m * s) = (range m).flatMap fun j => (range s).map fun t => j * s + t := by
  induction m with
  | zero => simp
  | succ m ih => rw [Nat.succ_mul, range_add, ih, range_succ, flatMap_append]; simp

namespace DMat

theorem getD_row (A : DMat R) {b : ℕ} (j : ℕ) : (A.row b).getD j 0 = A.e b j := by
  by_cases hj : j < A.cols
  · rw [row, getD_eq_getElem _ _ (by simpa using hj)]; simp
  · rw [row, getD_eq_default _ _ (by simpa using hj)]
    exact (A.out b j (by omega)).symm

@[simp] theorem length_row (A : DMat R) (b : ℕ) : (A.row b).length = A.cols := by simp [row]

theorem row_rowMat (x : List R) : (rowMat x).row 0 = x := by
  refine DMat.vec_ext (by simp [rowMat, DMat.of]) fun j hj => ?_
  have hj' : j < x.length := by simpa [rowMat, DMat.of] using hj
  rw [DMat.getD_row, rowMat, DMat.of_e (by omega) hj']

theorem hcat_rows (bs : ℕ) (Ms : List (DMat R)) (h : ∀ M ∈ Ms, M.rows = bs) : (hcat bs Ms).rows = bs := by
  cases Ms with
  | nil => rfl
  | cons M t => exact h M (by simp)

theorem hcat_row (bs : ℕ) (Ms : List (DMat R)) (h : ∀ M ∈ Ms, M.rows = bs) {b : ℕ} (hb : b < bs) :
    (hcat bs Ms).row b = Ms.flatMap fun M => M.row b := by
  induction Ms with
  | nil => rfl
  | cons M t ih =>
    have hM := h M (by simp)
    have iht := ih fun M hM => h M (by simp [hM])
    show (hcat2 M (hcat bs t)).row b = _
    rw [flatMap_cons, ← iht]
    have hc : (hcat2 M (hcat bs t)).cols = M.cols + (hcat bs t).cols := rfl
    refine ext_getElem (by simp [hc]) fun j h1 h2 => ?_
    rw [← getD_eq_getElem _ 0, ← getD_eq_getElem _ 0, getD_row]
    have hj : j < M.cols + (hcat bs t).cols := by simpa [hc] using h1
    rw [hcat2, of_e (by omega) hj]
    split_ifs with hlt
    · rw [getD_append _ _ _ _ (by simpa using hlt), getD_row]
    · rw [getD_append_right _ _ _ _ (by simp; omega), getD_row, length_row]

end DMat

namespace BilinearL

/-- The part of the canonical weight vector for copy `j` of the summand `k`, from the parameters at `i`. -/
def piece (W : World) (L : BilinearL) (params x : List R) (i : ℕ) (k : Key) (j : ℕ) : List R :=
  match L.xc.lookup k with
  | none => replicate (k.size W) 0
  | some xm => (range (k.size W)).map fun t => ∑ l ∈ Finset.range (min xm (k.size W)),
      params.getD (i + (j * min xm (k.size W) + l)) 0 * x.getD (((L.ids.lookup k).getD []).getD (l * k.size W + t) 0) 0

/-- The number of parameters used by the `m` copies of the summand `k`. -/
def adv (W : World) (L : BilinearL) (k : Key) (m : ℕ) : ℕ :=
  match L.xc.lookup k with
  | none => 0
  | some xm => m * min xm (k.size W)

/-- The canonical weight vector. -/
def wvec (W : World) (L : BilinearL) (params x : List R) : ℕ → Counter Key → List R
  | _, [] => []
  | i, (k, m) :: t => (range m).flatMap (L.piece W params x i k) ++ wvec W L params x (i + L.adv W k m) t

theorem length_piece (L : BilinearL) (params x : List R) (i : ℕ) (k : Key) (j : ℕ) : (L.piece W params x i k j).length = k.size W := by
  unfold piece; split <;> simp

theorem length_wvec (L : BilinearL) (params x : List R) (c : Counter Key) : ∀ i, (L.wvec W params x i c).length = c.sumSize (Key.size W) := by
  induction c with
  | nil => intro i; rfl
  | cons kc t ih =>
    obtain ⟨k, m⟩ := kc
    intro i
    simp only [wvec, length_append, ih, Counter.sumSize, map_cons, sum_cons, length_flatMap, length_piece]
    simp [Nat.mul_comm]

/-- The indices drawn have the right number. -/
def Fits (W : World) (L : BilinearL) : Prop :=
  ∀ k xm, L.xc.lookup k = some xm → ((L.ids.lookup k).getD []).length = min xm (k.size W) * k.size W

/-- Total number of parameters used from `c` on. -/
def used (W : World) (L : BilinearL) (c : Counter Key) : ℕ := (c.map fun kc => L.adv W kc.1 kc.2).sum

theorem blocks_ok {L : BilinearL} (hL : L.Fits W) (params : List R) (X : DMat R) (c : Counter Key) : ∀ i, i + L.used W c ≤ params.length →
    ∃ Bs, L.blocks W params X i c = .ok Bs ∧ (∀ B ∈ Bs, B.rows = X.rows) ∧
      ∀ b < X.rows, Bs.flatMap (fun B => B.row b) = L.wvec W params (X.row b) i c := by
  induction c with
  | nil => intro i _; exact ⟨[], rfl, by simp, fun b _ => rfl⟩
  | cons kc t ih =>
    obtain ⟨k, m⟩ := kc
    intro i hi
    simp only [used, map_cons, sum_cons] at hi
    obtain ⟨Bs, h1, h2, h3⟩ := ih (i + L.adv W k m) (by simp only [used]; omega)
    cases hx : L.xc.lookup k with
    | none =>
      have ha : L.adv W k m = 0 := by simp [adv, hx]
      rw [ha, Nat.add_zero] at h1
      refine ⟨DMat.zero X.rows (m * k.size W) :: Bs, ?_, ?_, ?_⟩
      · simp only [blocks, hx, h1]; rfl
      · intro B hB; rcases mem_cons.1 hB with rfl | h; exacts [rfl, h2 B h]
      · intro b hb
        rw [flatMap_cons, h3 b hb, wvec]
        congr 1
        have hp : ∀ j, L.piece W params (X.row b) i k j = replicate (k.size W) 0 := fun j => by simp [piece, hx]
        rw [show L.piece W params (X.row b) i k = fun _ => replicate (k.size W) 0 from funext hp]
        refine DMat.vec_ext (by simp [DMat.zero, length_flatMap]) fun j hj => ?_
        rw [DMat.getD_row, DMat.zero_e]
        rw [getD_eq_getElem _ _ (by simpa [DMat.zero, length_flatMap] using hj)]
        exact (mem_replicate.1 (show _ ∈ replicate (m * k.size W) (0 : R) by
          have : (range m).flatMap (fun _ => replicate (k.size W) (0 : R)) = replicate (m * k.size W) 0 := by
            rw [eq_replicate_iff]
            exact ⟨by simp [length_flatMap], fun b hb => by obtain ⟨_, _, h⟩ := mem_flatMap.1 hb; exact (mem_replicate.1 h).2⟩
          rw [← this]; exact getElem_mem _)).2.symm
    | some xm =>
      obtain ⟨n, hn⟩ : ∃ n, n = min xm (k.size W) := ⟨_, rfl⟩
      obtain ⟨s, hs⟩ : ∃ s, s = k.size W := ⟨_, rfl⟩
      have ha : L.adv W k m = m * n := by simp [adv, hx, hn]
      rw [ha] at h1 h3 hi
      obtain ⟨bids, hbids⟩ : ∃ bids, bids = (L.ids.lookup k).getD [] := ⟨_, rfl⟩
      have hbl : bids.length = n * s := by rw [hbids, hL k xm hx, hn, hs]
      obtain ⟨p, hp⟩ : ∃ p, p = (params.drop i).take (m * n) := ⟨_, rfl⟩
      have hpl : p.length = m * n := by rw [hp, length_take, length_drop]; omega
      obtain ⟨E, hE⟩ : ∃ E, E = (DMat.unflat m n p).mul (DMat.unflat n (s * X.rows) (X.pick (range X.rows) bids).transpose.flat) := ⟨_, rfl⟩
      refine ⟨(DMat.unflat (m * s) X.rows E.flat).transpose :: Bs, ?_, ?_, ?_⟩
      · simp only [blocks, hx]
        rw [← hn, ← hs, ← hbids, ← hp, if_pos ⟨hpl, hbl⟩, h1, ← hE]; rfl
      · intro B hB; rcases mem_cons.1 hB with rfl | h; exacts [rfl, h2 B h]
      · intro b hb
        rw [flatMap_cons, h3 b hb, wvec, ha]
        congr 1
        rw [DMat.row, show (DMat.unflat (m * s) X.rows E.flat).transpose.cols = m * s from rfl, range_mul, map_flatMap]
        refine flatMap_congr fun j hj => ?_
        have hj' : j < m := mem_range.1 hj
        rw [map_map]
        have hpc : L.piece W params (X.row b) i k j = (range s).map fun t => ∑ l ∈ Finset.range n,
            params.getD (i + (j * n + l)) 0 * (X.row b).getD (bids.getD (l * s + t) 0) 0 := by
          simp only [piece, hx, ← hbids]
          rw [← hn, ← hs]
        rw [hpc]
        refine map_congr_left fun t ht => ?_
        have ht' : t < s := mem_range.1 ht
        have hjt : j * s + t < m * s := by
          calc j * s + t < (j + 1) * s := by rw [Nat.add_mul]; omega
            _ ≤ m * s := Nat.mul_le_mul_right _ hj'
        have htb : t * X.rows + b < s * X.rows := by
          calc t * X.rows + b < (t + 1) * X.rows := by rw [Nat.add_mul]; omega
            _ ≤ s * X.rows := Nat.mul_le_mul_right _ ht'
        have hEr : E.rows = m := by rw [hE]; rfl
        have hEc : E.cols = s * X.rows := by rw [hE]; rfl
        show (DMat.unflat (m * s) X.rows E.flat).transpose.e b (j * s + t) = _
        rw [DMat.transpose_e, DMat.unflat, DMat.of_e hjt hb]
        have e1 : (j * s + t) * X.rows + b = j * E.cols + (t * X.rows + b) := by rw [hEc]; ring
        rw [e1, DMat.getD_flat _ (by omega) (by omega), hE,
          DMat.mul_e (A := DMat.unflat m n p) (B := DMat.unflat n (s * X.rows) (X.pick (range X.rows) bids).transpose.flat) hj' htb]
        refine Finset.sum_congr rfl fun l hl => ?_
        have hl' : l < n := Finset.mem_range.1 hl
        have hjl : j * n + l < m * n := by
          calc j * n + l < (j + 1) * n := by rw [Nat.add_mul]; omega
            _ ≤ m * n := Nat.mul_le_mul_right _ hj'
        have hlt : l * s + t < n * s := by
          calc l * s + t < (l + 1) * s := by rw [Nat.add_mul]; omega
            _ ≤ n * s := Nat.mul_le_mul_right _ hl'
        rw [DMat.unflat, DMat.of_e hj' hl', DMat.unflat, DMat.of_e hl' htb, DMat.getD_row]
        congr 1
        · rw [hp, getD_eq_getElem _ _ (by rw [length_take, length_drop]; omega), getElem_take, getElem_drop, getD_eq_getElem _ _ (by omega)]
        · have e2 : l * (s * X.rows) + (t * X.rows + b) = (l * s + t) * (X.pick (range X.rows) bids).transpose.cols + b := by
            simp [DMat.pick]; ring
          rw [e2, DMat.getD_flat _ (by simp [DMat.pick, hbl, hlt]) (by simpa [DMat.pick] using hb), DMat.transpose_e,
            DMat.pick_e (by simpa using hb) (by rw [hbl]; exact hlt), getD_range hb]

theorem blocks_short {L : BilinearL} (params : List R) (X : DMat R) (c : Counter Key) : ∀ i, i ≤ params.length →
    params.length < i + L.used W c → L.blocks W params X i c = .error .type := by
  induction c with
  | nil => intro i h h'; simp [used] at h'; omega
  | cons kc t ih =>
    obtain ⟨k, m⟩ := kc
    intro i hi hlt
    simp only [used, map_cons, sum_cons] at hlt
    cases hx : L.xc.lookup k with
    | none =>
      have ha : L.adv W k m = 0 := by simp [adv, hx]
      simp only [blocks, hx, ih i hi (by simp only [used]; omega)]; rfl
    | some xm =>
      have ha : L.adv W k m = m * min xm (k.size W) := by simp [adv, hx]
      simp only [blocks, hx]
      split_ifs with hc
      · have : i + m * min xm (k.size W) ≤ params.length := by
          have := hc.1
          rw [length_take, length_drop] at this; omega
        rw [ih _ this (by simp only [used]; omega)]; rfl
      · rfl

/-- The weights only depend on the parameters in the range reported. -/
theorem wvec_congr {L : BilinearL} {params params' : List R} (x : List R) {N : ℕ} (h : ∀ i < N, params.getD i 0 = params'.getD i 0) (c : Counter Key) :
    ∀ i, i + L.used W c ≤ N → L.wvec W params x i c = L.wvec W params' x i c := by
  induction c with
  | nil => intro i _; rfl
  | cons kc t ih =>
    obtain ⟨k, m⟩ := kc
    intro i hi
    simp only [used, map_cons, sum_cons] at hi
    simp only [wvec]
    rw [ih _ (by simp only [used]; omega)]
    congr 1
    refine flatMap_congr fun j hj => ?_
    have hj' : j < m := mem_range.1 hj
    cases hx : L.xc.lookup k with
    | none => simp only [piece, hx]
    | some xm =>
      have ha : L.adv W k m = m * min xm (k.size W) := by simp [adv, hx]
      simp only [piece, hx]
      refine map_congr_left fun u _ => Finset.sum_congr rfl fun l hl => ?_
      have hl' := Finset.mem_range.1 hl
      have hjl : j * min xm (k.size W) + l < m * min xm (k.size W) := by
        calc j * min xm (k.size W) + l < (j + 1) * min xm (k.size W) := by rw [Nat.add_mul]; omega
          _ ≤ _ := Nat.mul_le_mul_right _ hj'
      rw [h _ (by omega)]

/-- The weight matrix for one input. -/
def mat (W : World) (L : BilinearL) (params x : List R) : DMat R :=
  DMat.unflat L.nout L.nin (sel (L.wvec W params x 0 L.Wc) L.invPerm)

theorem project_ok {L : BilinearL} (hL : L.Fits W) {params : List R} (hp : L.used W L.Wc ≤ params.length) (hi : L.invPerm.length = L.nout * L.nin)
    (X : DMat R) : L.project W params X = .ok ((range X.rows).map fun b => L.mat W params (X.row b)) := by
  obtain ⟨Bs, h1, h2, h3⟩ := blocks_ok hL params X L.Wc 0 (by omega)
  unfold project
  rw [h1]
  show (if ((DMat.hcat X.rows Bs).pick (range X.rows) L.invPerm).cols = L.nout * L.nin then _ else _) = _
  rw [if_pos (by simpa [DMat.pick] using hi)]
  congr 1
  refine map_congr_left fun b hb => ?_
  have hb' := mem_range.1 hb
  unfold mat
  congr 1
  rw [← h3 b hb', ← DMat.hcat_row X.rows Bs h2 hb']
  refine DMat.vec_ext (by simp [DMat.pick]) fun j hj => ?_
  have hj' : j < L.invPerm.length := by simpa [DMat.pick] using hj
  rw [DMat.getD_row, DMat.pick_e (by simpa using hb') hj', getD_sel hj', DMat.getD_row, getD_range hb']

theorem apply_ok {L : BilinearL} (hL : L.Fits W) {params : List R} (hp : L.used W L.Wc ≤ params.length) (hi : L.invPerm.length = L.nout * L.nin)
    (c : R) {X : DMat R} (hX : X.cols = L.nin) :
    L.apply W c params X = .ok (DMat.of X.rows L.nout fun b i => c * ((L.mat W params (X.row b)).mulVec (X.row b)).getD i 0) := by
  unfold apply
  rw [if_pos hX, project_ok hL hp hi]
  show Except.ok _ = _
  congr 1
  refine DMat.ext rfl rfl fun b i hb hi' => ?_
  have hb' : b < X.rows := hb
  have hi'' : i < L.nout := hi'
  have e : ((range X.rows).map fun b => L.mat W params (X.row b)).getD b (DMat.zero 0 0) = L.mat W params (X.row b) := by
    rw [getD_eq_getElem _ _ (by simpa using hb')]; simp
  rw [DMat.of_e hb' hi'', DMat.of_e hb' hi'', e]

theorem applyVec_ok {L : BilinearL} (hL : L.Fits W) {params : List R} (hp : L.used W L.Wc ≤ params.length) (hi : L.invPerm.length = L.nout * L.nin)
    (c : R) {x : List R} (hx : x.length = L.nin) :
    L.applyVec W c params x = .ok (((L.mat W params x).mulVec x).map (c * ·)) := by
  unfold applyVec
  rw [apply_ok hL hp hi c (by exact hx)]
  show Except.ok _ = _
  congr 1
  have hrow : (DMat.of 1 x.length fun _ j => x.getD j 0).row 0 = x := by
    refine DMat.vec_ext (by simp [DMat.of]) fun j hj => ?_
    have hj' : j < x.length := by simpa [DMat.of] using hj
    rw [DMat.getD_row, DMat.of_e (by omega) hj']
  have hr : (L.mat W params x).rows = L.nout := rfl
  refine DMat.vec_ext (by simp [hr, DMat.of]) fun j hj => ?_
  have hj' : j < L.nout := by simpa [DMat.of] using hj
  rw [DMat.getD_row, DMat.of_e (by show 0 < 1; omega) hj', hrow]
  rw [getD_eq_getElem _ _ (by simpa [hr] using hj'), getD_eq_getElem _ _ (by simpa [hr] using hj'), getElem_map]

end BilinearL

/-! ### Rows of `as_dict` -/

theorem lookup_map_snd {α β : Type} (l : List (Key × α)) (f : Key → α → β) (k : Key) :
    (l.map fun e => (e.1, f e.1 e.2)).lookup k = (l.lookup k).map (f k) := by
  induction l with
  | nil => rfl
  | cons e t ih =>
    obtain ⟨a, b⟩ := e
    simp only [map_cons, lookup_cons, ih]
    by_cases h : k = a
    · subst h; simp
    · have : (k == a) = false := by simpa using h
      simp [this]

theorem lookup_filter_key {α : Type} (l : List (Key × α)) (p : Key → Bool) (k : Key) :
    (l.filter fun e => p e.1).lookup k = if p k then l.lookup k else none := by
  induction l with
  | nil => simp
  | cons e t ih =>
    obtain ⟨a, b⟩ := e
    simp only [filter_cons]
    by_cases h : k = a
    · subst h
      by_cases hp : p k <;> simp [hp, ih, lookup_cons]
    · have hb : (k == a) = false := by simpa using h
      by_cases hp : p a <;> simp [hp, ih, lookup_cons, hb]

theorem getD_flatMap_const {α : Type} {β : Type} [Zero β] (f : α → List β) (s : ℕ) {t : ℕ} (ht : t < s) (l : List α) (hf : ∀ x ∈ l, (f x).length = s) :
    ∀ (i : ℕ) (hi : i < l.length), (l.flatMap f).getD (i * s + t) 0 = (f l[i]).getD t 0 := by
  induction l with
  | nil => intro i hi; simp at hi
  | cons a l ih =>
    intro i hi
    rw [flatMap_cons]
    have ha := hf a (by simp)
    cases i with
    | zero => rw [Nat.zero_mul, Nat.zero_add, getD_append _ _ _ _ (by omega)]; rfl
    | succ i =>
      rw [getD_append_right _ _ _ _ (by rw [Nat.succ_mul, ha]; omega), ha, show (i + 1) * s + t - s = i * s + t by rw [Nat.succ_mul]; omega]
      exact ih (fun x hx => hf x (by simp [hx])) i (by simpa using hi)

theorem asDict_sel {s : SRep} (h : s.WF W) (v : List R) :
    s.asDict W v = (s.asDict W (range (s.size W))).map fun e => (e.1, e.2.map (sel v)) := by
  apply dict_ext
  · rw [map_map]
    simp only [Function.comp_def, length_map]
    exact (asDictLoop_keys _ _ _ _ _).trans (asDictLoop_keys _ _ _ _ _).symm
  · have h1 := asDict_pcs (W := W) s (range (s.size W))
    have h3 : sel (range (s.size W)) s.perm = s.perm := by
      conv_rhs => rw [← map_id s.perm]
      refine map_congr_left fun x hx => ?_
      exact getD_range (lt_of_perm_range h.perm hx)
    rw [h3] at h1
    rw [asDict_pcs]
    conv_lhs => rw [sel, pcs_map, ← h1, map_flatMap]
    rw [flatMap_map]
    refine flatMap_congr fun e _ => ?_
    simp [Function.comp_def, sel]

theorem rowsAt_sel {s : SRep} (h : s.WF W) (k : Key) (v : List R) : rowsAt W s k v = (rowsAt W s k (range (s.size W))).map (sel v) := by
  unfold rowsAt
  have e := lookup_map_snd (s.asDict W (range (s.size W))) (fun _ r => r.map (sel v)) k
  rw [asDict_sel h v, e]
  cases (s.asDict W (range (s.size W))).lookup k <;> rfl

theorem rowsAt_length (s : SRep) (k : Key) {α : Type} [Zero α] (v : List α) : (rowsAt W s k v).length = Counter.get s.c k := by
  have h : (s.asDict W v).map (fun e => (e.1, e.2.length)) = s.c := asDictLoop_keys _ _ _ _ _
  unfold rowsAt Counter.get
  have e := lookup_map_snd (s.asDict W v) (fun _ r => r.length) k
  rw [← h, e]
  cases (s.asDict W v).lookup k <;> rfl

theorem mem_of_lookup {α : Type} {l : List (Key × α)} {k : Key} {b : α} (h : l.lookup k = some b) : (k, b) ∈ l := by
  induction l with
  | nil => simp at h
  | cons e t ih =>
    obtain ⟨a, c⟩ := e
    rw [lookup_cons] at h
    by_cases hk : k = a
    · subst hk; simp at h; simp [h]
    · have hb : (k == a) = false := by simpa using hk
      rw [hb] at h; exact mem_cons_of_mem _ (ih h)

theorem rowsAt_row {s : SRep} (h : s.WF W) (k : Key) {α : Type} [Zero α] (v : List α) : ∀ row ∈ rowsAt W s k v, row.length = k.size W := by
  intro row hrow
  unfold rowsAt at hrow
  cases hl : (s.asDict W v).lookup k with
  | none => rw [hl] at hrow; simp at hrow
  | some rs =>
    rw [hl] at hrow
    have hl' : (sel v s.perm).length = (s.c.expand.map (Key.size W)).sum := by
      rw [length_sel, length_of_perm_range h.perm, sum_map_expand]; rfl
    have : (k, row) ∈ pcs (Key.size W) s.c.expand (sel v s.perm) := by
      rw [← asDict_pcs]; exact mem_flatMap.2 ⟨(k, rs), mem_of_lookup hl, mem_map_of_mem hrow⟩
    exact pcs_length _ _ _ hl' _ this

theorem asDict_rho {I : Interp R} (hI : I.Sized W) {s : SRep} (h : s.WF W) {v : List R} (hv : v.length = s.size W) :
    s.asDict W ((s.rho I).sem.mulVec v) = (s.asDict W v).map fun e => (e.1, e.2.map fun row => (e.1.rho I).sem.mulVec row) := by
  apply dict_ext
  · rw [map_map]
    simp only [Function.comp_def, length_map]
    exact (asDictLoop_keys _ _ _ _ _).trans (asDictLoop_keys _ _ _ _ _).symm
  · rw [asDict_pcs, SRep.pcs_rho hI h hv, ← asDict_pcs, map_flatMap, flatMap_map]
    refine flatMap_congr fun e _ => ?_
    simp [Function.comp_def]

theorem rowsAt_rho {I : Interp R} (hI : I.Sized W) {s : SRep} (h : s.WF W) (k : Key) {v : List R} (hv : v.length = s.size W) :
    rowsAt W s k ((s.rho I).sem.mulVec v) = (rowsAt W s k v).map fun row => (k.rho I).sem.mulVec row := by
  unfold rowsAt
  rw [asDict_rho hI h hv, lookup_map_snd _ (fun k (r : List (List R)) => r.map fun row => (k.rho I).sem.mulVec row)]
  cases (s.asDict W v).lookup k <;> rfl

/-! ### The closure of `bilinear_weights` -/

/-- What `bilinear_weights` builds for a sum. -/
def bilinearOf (W : World) (choose : Key → List ℕ) (outRep : Rep) (x : SRep) (w : SRep) : BilinearL where
  nout := outRep.size W
  nin := x.size W
  Wc := w.c
  xc := x.c.filter fun kc => kc.1 != .scalar
  ids := (x.asDict W (range (x.size W))).map fun e => (e.1, (choose e.1).flatMap fun i => e.2.getD i [])
  invPerm := argsort w.perm
  dims := ((x.c.filter fun kc => kc.1 != .scalar).map fun kc => Counter.get w.c kc.1 * min kc.2 (kc.1.size W)).sum

theorem mkDeferredProd_not_key {l : List Rep} {r : Rep} (h : mkDeferredProd l = .ok r) : ¬ r.WF W := by
  unfold mkDeferredProd at h
  split at h <;> simp_all [Rep.WF]
  all_goals first | (subst h; simp [Rep.WF]) | (rw [← h]; simp [Rep.WF])

theorem rshift_sum {s : SRep} {b r : Rep} (h : Rep.rshift W (.sum s) b = .ok r) (hw : r.WF W) : ∃ w, r = .sum w := by
  unfold Rep.rshift at h
  cases ht : SRep.T W s with
  | error e => simp [Rep.T, ht, bind, Except.bind] at h
  | ok t =>
    have h' : Rep.mul W b (.sum t) = .ok r := by simpa [Rep.T, ht, bind, Except.bind] using h
    have dist : ∀ ops, (do let r ← distribute W ops; .ok (Rep.sum r) : Py Rep) = .ok r → ∃ w, r = .sum w := by
      intro ops hd
      cases hdd : distribute W ops with
      | error e => simp [hdd, bind, Except.bind] at hd
      | ok w => exact ⟨w, by simpa [hdd, bind, Except.bind, eq_comm] using hd⟩
    unfold Rep.mul at h'
    split at h'
    · exact ⟨t, (Except.ok.inj h').symm⟩
    · split_ifs at h'
      · exact dist _ h'
      · exact absurd hw (mkDeferredProd_not_key h')
    · split_ifs at h'
      · rename_i s' _ _ _ heq _; exact dist _ h'
      · exact absurd hw (mkDeferredProd_not_key h')
    all_goals simp_all

variable {g : Gid} {N : ℕ}

theorem bilinearWeights_ok (hW : W.SingleOK g N) (choose : Key → List ℕ) {out : Rep} {x : SRep} (ho : out.Over W g N) (hx : (Rep.sum x).Over W g N)
    (hN : out.size W * x.size W ≤ N) : ∃ w : SRep, Rep.rshift W (.sum x) out = .ok (.sum w) ∧ (Rep.sum w).Over W g N ∧
      w.size W = out.size W * x.size W ∧ bilinearWeights W choose out (.sum x) = .ok (bilinearOf W choose out x w) := by
  obtain ⟨r, h1, -, h2, h3, h4, -⟩ := Rep.rshift_spec hW hx.wf ho.wf hx.key ho.key hN
  obtain ⟨w, rfl⟩ := rshift_sum h1 h2
  refine ⟨w, h1, ⟨h2, h3⟩, h4, ?_⟩
  unfold bilinearWeights
  have h5 := Rep.canon_wf h2
  simp only [h1, bind, Except.bind, h5]
  rfl

section
variable {choose : Key → List ℕ} {out : Rep} {x w : SRep}

theorem bilinearOf_xc (k : Key) : (bilinearOf W choose out x w).xc.lookup k = if k = .scalar then none else x.c.lookup k := by
  show (x.c.filter fun kc => kc.1 != .scalar).lookup k = _
  rw [lookup_filter_key _ (fun k => k != .scalar)]
  by_cases h : k = .scalar <;> simp [h]

theorem bilinearOf_ids {k : Key} {xm : ℕ} (h : (bilinearOf W choose out x w).xc.lookup k = some xm) :
    Counter.get x.c k = xm ∧ ((bilinearOf W choose out x w).ids.lookup k).getD [] =
      (choose k).flatMap fun i => (rowsAt W x k (range (x.size W))).getD i [] := by
  rw [bilinearOf_xc] at h
  split_ifs at h with hk
  refine ⟨by simp [Counter.get, h], ?_⟩
  show (((x.asDict W (range (x.size W))).map fun e => (e.1, (choose e.1).flatMap fun i => e.2.getD i [])).lookup k).getD [] = _
  rw [lookup_map_snd _ (fun k (r : List (List ℕ)) => (choose k).flatMap fun i => r.getD i [])]
  have hd : (x.asDict W (range (x.size W))).map (fun e => (e.1, e.2.length)) = x.c := asDictLoop_keys _ _ _ _ _
  have e := lookup_map_snd (x.asDict W (range (x.size W))) (fun _ r => r.length) k
  rw [← hd, e] at h
  unfold rowsAt
  cases hl : (x.asDict W (range (x.size W))).lookup k with
  | none => rw [hl] at h; simp at h
  | some rs => rfl

theorem rowsAt_getD_length (hx : x.WF W) (k : Key) {i : ℕ} (hi : i < Counter.get x.c k) {α : Type} [Zero α] (v : List α) :
    ((rowsAt W x k v).getD i []).length = k.size W := by
  have hi' : i < (rowsAt W x k v).length := by rw [rowsAt_length]; exact hi
  rw [getD_eq_getElem _ _ hi']
  exact rowsAt_row hx k v _ (getElem_mem _)

theorem bilinearOf_fits (hx : x.WF W) (hc : ChoiceOK W x choose) : (bilinearOf W choose out x w).Fits W := by
  intro k xm h
  obtain ⟨h1, h2⟩ := bilinearOf_ids h
  obtain ⟨h3, h4⟩ := hc k
  rw [h2, length_flatMap]
  have : (choose k).map (fun i => ((rowsAt W x k (range (x.size W))).getD i []).length) = (choose k).map fun _ => k.size W :=
    map_congr_left fun i hi => rowsAt_getD_length hx k (h4 i hi) _
  rw [this, map_const', sum_replicate, h3, h1]; rfl

/-- A part of the weights as a combination of parts of the input. -/
theorem piece_getD (hx : x.WF W) (hc : ChoiceOK W x choose) {k : Key} {xm : ℕ} (h : (bilinearOf W choose out x w).xc.lookup k = some xm)
    (params v : List R) (i j : ℕ) {t : ℕ} (ht : t < k.size W) :
    ((bilinearOf W choose out x w).piece W params v i k j).getD t 0 = ∑ l ∈ Finset.range (min xm (k.size W)),
      params.getD (i + (j * min xm (k.size W) + l)) 0 * ((rowsAt W x k v).getD ((choose k).getD l 0) []).getD t 0 := by
  obtain ⟨h1, h2⟩ := bilinearOf_ids h
  obtain ⟨h3, h4⟩ := hc k
  unfold BilinearL.piece
  rw [h]
  dsimp only
  rw [getD_eq_getElem _ _ (by simpa using ht)]
  simp only [getElem_map, getElem_range]
  refine Finset.sum_congr rfl fun l hl => ?_
  have hl' : l < (choose k).length := by rw [h3, h1]; exact Finset.mem_range.1 hl
  congr 1
  rw [h2, getD_flatMap_const _ _ ht _ (fun i hi => rowsAt_getD_length hx k (h4 i hi) _) l hl', getD_eq_getElem _ 0 hl']
  have hi := h4 _ (getElem_mem hl')
  have hi' : (choose k)[l] < (rowsAt W x k (range (x.size W))).length := by rw [rowsAt_length]; exact hi
  rw [rowsAt_sel hx k v, getD_eq_getElem (l := (rowsAt W x k (range (x.size W))).map (sel v)) (d := []) (by simpa using hi'), getElem_map, getD_eq_getElem _ [] hi']
  rw [getD_sel]
  rw [← getD_eq_getElem _ [] hi', rowsAt_getD_length hx k hi]; exact ht

theorem piece_rho (hx : x.WF W) (hc : ChoiceOK W x choose) {I : Interp R} (hI : I.Sized W) {k : Key} (hk : k.WF W)
    (params : List R) {v : List R} (hv : v.length = x.size W) (i j : ℕ) :
    (bilinearOf W choose out x w).piece W params ((x.rho I).sem.mulVec v) i k j =
      (k.rho I).sem.mulVec ((bilinearOf W choose out x w).piece W params v i k j) := by
  have hsq := Key.rho_sq hI hk
  cases h : (bilinearOf W choose out x w).xc.lookup k with
  | none =>
    have e : ∀ u : List R, (bilinearOf W choose out x w).piece W params u i k j = replicate (k.size W) 0 := fun u => by
      simp only [BilinearL.piece, h]
    rw [e, e]
    have := DMat.mulVec_replicate_zero (k.rho I).sem (k.size W)
    rw [hsq.1] at this
    exact this.symm
  | some xm =>
    refine DMat.vec_ext (by rw [BilinearL.length_piece, DMat.length_mulVec, hsq.1]) fun t ht => ?_
    rw [BilinearL.length_piece] at ht
    rw [piece_getD hx hc h _ _ _ _ ht, DMat.getD_mulVec (by rw [hsq.1]; exact ht), hsq.2]
    obtain ⟨h1, -⟩ := bilinearOf_ids h
    obtain ⟨h3, h4⟩ := hc k
    have e1 : ∀ l < min xm (k.size W), ((rowsAt W x k ((x.rho I).sem.mulVec v)).getD ((choose k).getD l 0) []).getD t 0 =
        ∑ u ∈ Finset.range (k.size W), (k.rho I).sem.e t u * ((rowsAt W x k v).getD ((choose k).getD l 0) []).getD u 0 := by
      intro l hl
      have hl' : l < (choose k).length := by rw [h3, h1]; exact hl
      have hi := h4 _ (getElem_mem hl')
      have hi' : (choose k)[l] < (rowsAt W x k v).length := by rw [rowsAt_length]; exact hi
      rw [rowsAt_rho hI hx k hv, getD_eq_getElem _ 0 hl', getD_eq_getElem (l := (rowsAt W x k v).map fun row => (k.rho I).sem.mulVec row) (d := []) (by simpa using hi'), getElem_map,
        DMat.getD_mulVec (by rw [hsq.1]; exact ht), hsq.2, getD_eq_getElem _ [] hi']
    rw [Finset.sum_congr rfl fun l hl => by rw [e1 l (Finset.mem_range.1 hl)]]
    simp only [Finset.mul_sum]
    rw [Finset.sum_comm]
    refine Finset.sum_congr rfl fun u hu => ?_
    rw [piece_getD hx hc h _ _ _ _ (Finset.mem_range.1 hu), Finset.mul_sum]
    exact Finset.sum_congr rfl fun l _ => by ring

theorem wvec_rho (hx : x.WF W) (hc : ChoiceOK W x choose) {I : Interp R} (hI : I.Sized W) (params : List R) {v : List R}
    (hv : v.length = x.size W) (c : Counter Key) (hk : ∀ k ∈ c.keys, k.WF W) : ∀ i,
    (bilinearOf W choose out x w).wvec W params ((x.rho I).sem.mulVec v) i c =
      (DMat.bdiag (c.expand.map fun k => (k.rho I).sem)).mulVec ((bilinearOf W choose out x w).wvec W params v i c) := by
  induction c with
  | nil => intro i; simp [BilinearL.wvec, Counter.expand, DMat.bdiag, DMat.mulVec, DMat.zero]
  | cons kc t ih =>
    obtain ⟨k, m⟩ := kc
    intro i
    have hkw := hk k (by simp [Counter.keys])
    have hsq := Key.rho_sq hI hkw
    have e : (Counter.expand ((k, m) :: t)).map (fun k => (k.rho I).sem) =
        (range m).map (fun _ => (k.rho I).sem) ++ (Counter.expand t).map fun k => (k.rho I).sem := by
      simp [Counter.expand, map_replicate, map_const']
    have hc1 : (DMat.bdiag ((range m).map fun _ => (k.rho I).sem)).cols = ((range m).flatMap ((bilinearOf W choose out x w).piece W params v i k)).length := by
      rw [(bdiag_isSq (range m) (fun _ => (k.rho I).sem) (fun _ => k.size W) fun _ _ => hsq).2]
      simp [length_flatMap, BilinearL.length_piece]
    simp only [BilinearL.wvec]
    rw [e, DMat.bdiag_append, DMat.mulVec_bdiag2 _ _ _ _ hc1.symm, DMat.mulVec_bdiag _ _ _ fun j _ => by rw [BilinearL.length_piece, hsq.2],
      ih (fun j hj => hk j (by simp only [Counter.keys, map_cons, mem_cons]; exact .inr hj))]
    congr 1
    exact flatMap_congr fun j _ => piece_rho hx hc hI hkw params hv i j

/-- The weights are an equivariant function of the input. -/
theorem mat_rho (hx : x.WF W) (hw : w.WF W) (hz : w.size W = out.size W * x.size W) (hc : ChoiceOK W x choose) {I : Interp R} (hI : I.Sized W)
    (params : List R) {v : List R} (hv : v.length = x.size W) :
    ((bilinearOf W choose out x w).mat W params ((x.rho I).sem.mulVec v)).flat =
      ((w.rho I).sem).mulVec ((bilinearOf W choose out x w).mat W params v).flat := by
  have hl := length_of_perm_range hw.perm
  have ha : argsort w.perm ~ range (w.size W) := hl ▸ argsort_perm w.perm
  have hla := length_of_perm_range ha
  have fl : ∀ u : List R, ((bilinearOf W choose out x w).mat W params u).flat =
      sel ((bilinearOf W choose out x w).wvec W params u 0 w.c) (argsort w.perm) := by
    intro u
    exact DMat.unflat_flat (by rw [length_sel]; exact hla.trans hz)
  have hwl : ∀ u : List R, ((bilinearOf W choose out x w).wvec W params u 0 w.c).length = w.size W := fun u =>
    BilinearL.length_wvec _ _ _ _ _
  have hsq := SRep.rho_sq hI hw
  rw [fl, fl]
  obtain ⟨Y, hY⟩ : ∃ Y, Y = (w.rho I).sem.mulVec (sel ((bilinearOf W choose out x w).wvec W params v 0 w.c) (argsort w.perm)) := ⟨_, rfl⟩
  have hYl : Y.length = w.size W := by rw [hY, DMat.length_mulVec, hsq.1]
  have h1 : sel Y w.perm = (bilinearOf W choose out x w).wvec W params ((x.rho I).sem.mulVec v) 0 w.c := by
    rw [hY]
    unfold SRep.rho
    rw [conjPerm_sel hw.perm (SRep.dsum_sq hI hw) (by rw [length_sel, hla]), sel_sel_argsort (by rw [hwl]; exact hw.perm)]
    simp only [LinOp.sem]
    rw [semM_map w.c (Key.rho I)]
    exact (wvec_rho hx hc hI params hv w.c (fun k hk => (hw.key k hk).1) 0).symm
  rw [← hY, ← h1, sel_argsort (by rw [hYl]; exact hw.perm)]

theorem sum_sum_comm {α β : Type} (A : List α) (B : List β) (f : α → β → ℕ) :
    (A.map fun a => (B.map fun b => f a b).sum).sum = (B.map fun b => (A.map fun a => f a b).sum).sum := by
  induction A with
  | nil => simp
  | cons a t ih => simp only [map_cons, sum_cons, ih, sum_map_add]

theorem lookup_sum {A : List (Key × ℕ)} (hA : (A.map Prod.fst).Nodup) (k : Key) (h : ℕ → ℕ) :
    (match A.lookup k with
      | none => 0
      | some n => h n) = (A.map fun a => if a.1 = k then h a.2 else 0).sum := by
  induction A with
  | nil => rfl
  | cons a t ih =>
    obtain ⟨k', n⟩ := a
    simp only [map_cons, nodup_cons] at hA
    simp only [lookup_cons, map_cons, sum_cons]
    by_cases hk : k = k'
    · subst hk
      have : (t.map fun a => if a.1 = k then h a.2 else 0) = t.map fun _ => 0 :=
        map_congr_left fun a ha => by
          rw [if_neg]; intro e; exact hA.1 (by rw [← e]; exact mem_map_of_mem ha)
      rw [this]; simp
    · have hb : (k == k') = false := by simpa using hk
      rw [hb, if_neg fun e => hk e.symm, Nat.zero_add, ← ih hA.2]

/-- The number of parameters reported is the number used. -/
theorem bilinearOf_dims (hx : x.c.keys.Nodup) (hw : w.c.keys.Nodup) :
    (bilinearOf W choose out x w).dims = (bilinearOf W choose out x w).used W (bilinearOf W choose out x w).Wc := by
  have hx' : ((x.c.filter fun kc => kc.1 != .scalar).map Prod.fst).Nodup :=
    hx.sublist (filter_sublist.map Prod.fst)
  have h1 : ∀ kc : Key × ℕ, Counter.get w.c kc.1 * min kc.2 (kc.1.size W) =
      (w.c.map fun b => if b.1 = kc.1 then b.2 * min kc.2 (kc.1.size W) else 0).sum := by
    intro kc
    rw [← lookup_sum hw kc.1 fun m => m * min kc.2 (kc.1.size W), Counter.get]
    cases w.c.lookup kc.1 <;> simp
  have h2 : ∀ b : Key × ℕ, (bilinearOf W choose out x w).adv W b.1 b.2 =
      ((x.c.filter fun kc => kc.1 != .scalar).map fun kc => if b.1 = kc.1 then b.2 * min kc.2 (kc.1.size W) else 0).sum := by
    intro b
    unfold BilinearL.adv
    have h3 := lookup_sum hx' b.1 fun xm => b.2 * min xm (b.1.size W)
    rw [show (bilinearOf W choose out x w).xc = x.c.filter fun kc => kc.1 != .scalar from rfl]
    rw [h3]
    congr 1
    refine map_congr_left fun a _ => ?_
    by_cases e : a.1 = b.1
    · rw [if_pos e, if_pos e.symm, e]
    · rw [if_neg e, if_neg fun h => e h.symm]
  show ((x.c.filter fun kc => kc.1 != .scalar).map fun kc => Counter.get w.c kc.1 * min kc.2 (kc.1.size W)).sum =
    (w.c.map fun kc => (bilinearOf W choose out x w).adv W kc.1 kc.2).sum
  rw [show (fun kc : Key × ℕ => Counter.get w.c kc.1 * min kc.2 (kc.1.size W)) = _ from funext h1,
    show (fun kc : Key × ℕ => (bilinearOf W choose out x w).adv W kc.1 kc.2) = _ from funext h2, sum_sum_comm]

theorem mulVec_smul (A : DMat R) (c : R) (v : List R) : A.mulVec (v.map (c * ·)) = (A.mulVec v).map (c * ·) := by
  have em : ∀ (l : List R) (j : ℕ), (l.map (c * ·)).getD j 0 = c * l.getD j 0 := by
    intro l j
    by_cases hj : j < l.length
    · rw [getD_eq_getElem _ _ (by simpa using hj), getD_eq_getElem _ _ hj, getElem_map]
    · rw [getD_eq_default _ _ (by simpa using hj), getD_eq_default _ _ (by omega), mul_zero]
  refine DMat.vec_ext (by simp) fun i hi => ?_
  have hi' : i < A.rows := by simpa using hi
  rw [em, DMat.getD_mulVec hi', DMat.getD_mulVec hi', Finset.mul_sum]
  exact Finset.sum_congr rfl fun j _ => by rw [em]; ring

theorem mat_mul_rho (hW : W.SingleOK g N) (ho : out.Over W g N) (hx : (Rep.sum x).Over W g N) (hN : out.size W * x.size W ≤ N)
    (hsh : Rep.rshift W (.sum x) out = .ok (.sum w)) (hc : ChoiceOK W x choose) {I : Interp R} (hI : I.Dual W)
    (params : List R) {v : List R} (hv : v.length = x.size W) :
    ((bilinearOf W choose out x w).mat W params ((x.rho I).sem.mulVec v)).mul (x.rho I).sem =
      (out.mat I).mul ((bilinearOf W choose out x w).mat W params v) := by
  obtain ⟨r, h1, -, h2, h3, h4, h5⟩ := Rep.rshift_spec hW hx.wf ho.wf hx.key ho.key hN
  rw [hsh] at h1
  have := Except.ok.inj h1
  subst this
  obtain ⟨M, hM⟩ : ∃ M, M = (bilinearOf W choose out x w).mat W params v := ⟨_, rfl⟩
  have hM1 : M.rows = out.size W := by rw [hM]; rfl
  have hM2 : M.cols = (Rep.sum x).size W := by rw [hM]; rfl
  obtain ⟨⟨X, hX, hX1, hX2⟩, -⟩ := h5 R I hI M hM1 hM2
  have hr := mat_rho (out := out) (choose := choose) hx.wf h2 h4 hc hI.toSized params hv
  rw [← hM] at hr ⊢
  have so := Rep.mat_sq hI.toSized ho.wf
  have sx : (x.rho I).sem.IsSq (x.size W) := SRep.rho_sq hI.toSized hx.wf
  have hr2 := DMat.flat_inj (by
    show out.size W = _
    rw [DMat.mul_rows, DMat.mul_rows, so.1]) (by
    show x.size W = _
    rw [DMat.mul_cols, hX.2]; rfl) (hr.trans hX2)
  rw [hr2, DMat.mul_assoc' _ _ _ (by rw [DMat.mul_cols, hM2, hX.1])]
  have : X.mul (x.rho I).sem = DMat.one ((Rep.sum x).size W) := hX1
  rw [this, DMat.mul_one' _ (by rw [DMat.mul_cols, hM2])]

/-- Applying a bilinear layer commutes with the group. -/
theorem bilinear_commutes (hW : W.SingleOK g N) (ho : out.Over W g N) (hx : (Rep.sum x).Over W g N) (hN : out.size W * x.size W ≤ N)
    (hsh : Rep.rshift W (.sum x) out = .ok (.sum w)) (hc : ChoiceOK W x choose) {I : Interp R} (hI : I.Dual W)
    (c : R) {params : List R} (hp : (bilinearOf W choose out x w).dims ≤ params.length) :
    Commutes (x.size W) (out.size W) ((bilinearOf W choose out x w).applyVec W c params) ((Rep.sum x).mat I) (out.mat I) := by
  intro v hv
  obtain ⟨r, h1, -, h2, h3, h4, -⟩ := Rep.rshift_spec hW hx.wf ho.wf hx.key ho.key hN
  rw [hsh] at h1
  have := Except.ok.inj h1
  subst this
  have hxw : x.WF W := hx.wf
  have hww : w.WF W := h2
  have sx : (x.rho I).sem.IsSq (x.size W) := SRep.rho_sq hI.toSized hx.wf
  have so := Rep.mat_sq hI.toSized ho.wf
  have hf := bilinearOf_fits (out := out) (w := w) hxw hc
  rw [bilinearOf_dims (hxw.cnt.st.nodup hxw.cnt.sorted) (hww.cnt.st.nodup hww.cnt.sorted)] at hp
  have hi : (bilinearOf W choose out x w).invPerm.length = (bilinearOf W choose out x w).nout * (bilinearOf W choose out x w).nin := by
    show (argsort w.perm).length = out.size W * x.size W
    rw [length_of_perm_range (argsort_perm w.perm), length_of_perm_range hww.perm]; exact h4
  have hl : ((x.rho I).sem.mulVec v).length = x.size W := by rw [DMat.length_mulVec, sx.1]
  refine ⟨_, BilinearL.applyVec_ok hf hp hi c hv, by simp; rfl, ?_⟩
  show (bilinearOf W choose out x w).applyVec W c params ((x.rho I).sem.mulVec v) = _
  rw [BilinearL.applyVec_ok hf hp hi c hl, mulVec_smul]
  congr 2
  have e := mat_mul_rho hW ho hx hN hsh hc hI params hv
  rw [← DMat.mulVec_mul _ _ _ (by rw [sx.1]; rfl), e, DMat.mulVec_mul _ _ _ (by rw [so.2]; rfl)]

/-! ### The layout of the parameters -/

namespace BilinearL

/-- The canonical weight vector, by summand. -/
def wdict (W : World) (L : BilinearL) (params v : List R) : ℕ → Counter Key → List (Key × List (List R))
  | _, [] => []
  | i, (k, m) :: t => (k, (range m).map (L.piece W params v i k)) :: wdict W L params v (i + L.adv W k m) t

theorem pcs_pieces (k : Key) (f : ℕ → List R) (hf : ∀ j, (f j).length = k.size W) (m : ℕ) (a : ℕ) (rest : List R) (ks : List Key) :
    pcs (Key.size W) (replicate m k ++ ks) ((range' a m).flatMap f ++ rest) = (range' a m).map (fun j => (k, f j)) ++ pcs (Key.size W) ks rest := by
  induction m generalizing a with
  | zero => simp
  | succ m ih =>
    rw [replicate_succ, range'_succ]
    simp only [cons_append, flatMap_cons, pcs, map_cons, append_assoc]
    rw [take_left' (hf a), drop_left' (hf a), ih]

theorem wdict_pcs (L : BilinearL) (params v : List R) (c : Counter Key) : ∀ i,
    (L.wdict W params v i c).flatMap (fun e => e.2.map fun r => (e.1, r)) = pcs (Key.size W) c.expand (L.wvec W params v i c) := by
  induction c with
  | nil => intro i; rfl
  | cons kc t ih =>
    obtain ⟨k, m⟩ := kc
    intro i
    simp only [wdict, flatMap_cons, ih, wvec]
    have := pcs_pieces (W := W) k (L.piece W params v i k) (length_piece L params v i k) m 0 (L.wvec W params v (i + L.adv W k m) t) (Counter.expand t)
    rw [← range_eq_range'] at this
    rw [show Counter.expand ((k, m) :: t) = replicate m k ++ Counter.expand t by simp [Counter.expand], this]
    simp [Function.comp_def]

theorem wdict_keys (L : BilinearL) (params v : List R) (c : Counter Key) : ∀ i,
    (L.wdict W params v i c).map (fun e => (e.1, e.2.length)) = c := by
  induction c with
  | nil => intro i; rfl
  | cons kc t ih => obtain ⟨k, m⟩ := kc; intro i; simp [wdict, ih]

theorem wdict_lookup (L : BilinearL) (params v : List R) (k : Key) (m : ℕ) (post : Counter Key) (pre : Counter Key) (h : k ∉ pre.keys) : ∀ i,
    (L.wdict W params v i (pre ++ (k, m) :: post)).lookup k = some ((range m).map (L.piece W params v (i + L.used W pre) k)) := by
  induction pre with
  | nil => intro i; simp [wdict, used, lookup_cons]
  | cons kc t ih =>
    obtain ⟨k', m'⟩ := kc
    simp only [Counter.keys, map_cons, mem_cons, not_or] at h
    intro i
    have hb : (k == k') = false := by simpa using h.1
    simp only [cons_append, wdict, lookup_cons, hb]
    rw [ih h.2]
    simp [used, Nat.add_assoc]

end BilinearL

theorem asDict_mat (hw : w.WF W) (hz : w.size W = out.size W * x.size W) (params v : List R) :
    w.asDict W ((bilinearOf W choose out x w).mat W params v).flat = (bilinearOf W choose out x w).wdict W params v 0 w.c := by
  have hl := length_of_perm_range hw.perm
  have ha : argsort w.perm ~ range (w.size W) := hl ▸ argsort_perm w.perm
  have hla := length_of_perm_range ha
  have fl : ((bilinearOf W choose out x w).mat W params v).flat =
      sel ((bilinearOf W choose out x w).wvec W params v 0 w.c) (argsort w.perm) :=
    DMat.unflat_flat (by rw [length_sel]; exact hla.trans hz)
  apply dict_ext
  · rw [BilinearL.wdict_keys]; exact asDictLoop_keys _ _ _ _ _
  · rw [BilinearL.wdict_pcs, asDict_pcs, fl, sel_sel_argsort]
    rw [BilinearL.length_wvec]; exact hw.perm

end
end Verif
