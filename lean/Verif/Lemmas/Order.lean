import Verif.Model.Rep
import Verif.Lemmas.ProdMat
import Verif.Lemmas.SumMat

/-! Consequences of `sorted` on strictly totally ordered keys. -/
namespace Verif
open List NdArr

section
variable {α : Type*} {lt : α → α → Bool}

theorem StrictTotalOn.asymm {l : List α} (h : StrictTotalOn lt l) {a b : α} (ha : a ∈ l) (hb : b ∈ l)
    (h1 : lt a b = true) (h2 : lt b a = true) : False := by
  have := h.trans a ha b hb a ha h1 h2
  rw [h.irrefl a ha] at this; exact absurd this (by simp)

theorem StrictTotalOn.mono {l l' : List α} (h : StrictTotalOn lt l) (hs : ∀ a ∈ l', a ∈ l) : StrictTotalOn lt l' where
  irrefl a ha := h.irrefl a (hs a ha)
  trans a ha b hb c hc := h.trans a (hs a ha) b (hs b hb) c (hs c hc)
  total a ha b hb := h.total a (hs a ha) b (hs b hb)

theorem StrictTotalOn.nodup {l : List α} (h : StrictTotalOn lt l) (hp : l.Pairwise fun a b => lt a b = true) : l.Nodup := by
  have : l.Pairwise fun a b => a ∈ l ∧ lt a b = true := by
    rw [pairwise_iff_getElem] at hp ⊢
    intro i j hi hj hij
    exact ⟨getElem_mem _, hp i j hi hj hij⟩
  exact this.imp fun {a b} hab he => by
    subst he
    have := h.irrefl a hab.1
    rw [hab.2] at this; exact absurd this (by simp)

/-- Two listings of the same keys in increasing order coincide. -/
theorem StrictTotalOn.eq_of_perm {l l' : List α} (h : StrictTotalOn lt l) (hp : l ~ l')
    (h1 : l.Pairwise fun a b => lt a b = true) (h2 : l'.Pairwise fun a b => lt a b = true) : l = l' := by
  apply hp.eq_of_pairwise (le := fun a b => lt a b = true) _ h1 h2
  intro a b ha hb hab hba
  exact (h.asymm ha (hp.mem_iff.2 hb) hab hba).elim

theorem StrictTotalOn.of_perm {l l' : List α} (h : StrictTotalOn lt l) (hp : l ~ l') : StrictTotalOn lt l' :=
  h.mono fun _ ha => hp.mem_iff.2 ha

theorem World.sorted_eq_self (W : World) {β : Type} {lt : β → β → Bool} {l : List β} (h : StrictTotalOn lt l)
    (h1 : l.Pairwise fun a b => lt a b = true) : W.sorted lt l = l :=
  ((h.of_perm (W.sorted_perm lt l).symm).eq_of_perm (W.sorted_perm lt l)
    (W.sorted_ord lt l (h.nodup h1) h) h1)

/-- `sorted` only depends on the set of keys. -/
theorem World.sorted_congr (W : World) {β : Type} {lt : β → β → Bool} {l l' : List β} (h : StrictTotalOn lt l)
    (hn : l.Nodup) (hp : l ~ l') : W.sorted lt l = W.sorted lt l' := by
  apply StrictTotalOn.eq_of_perm (lt := lt)
  · exact h.of_perm (W.sorted_perm lt l).symm
  · exact (W.sorted_perm lt l).trans (hp.trans (W.sorted_perm lt l').symm)
  · exact W.sorted_ord lt l hn h
  · exact W.sorted_ord lt l' (hp.nodup_iff.1 hn) (h.of_perm hp)

theorem consistent_of_sorted {K : Type*} [DecidableEq K] {lt : K → K → Bool} {u : List K} {c : Counter K}
    (h : StrictTotalOn lt u) (hu : u.Pairwise fun a b => lt a b = true)
    (hc : c.keys.Pairwise fun a b => lt a b = true) (hs : ∀ k ∈ c.keys, k ∈ u) : Consistent u c := by
  have hcn := (h.mono hs).nodup hc
  have hun := h.nodup hu
  apply (h.mono hs).eq_of_perm _ hc (hu.filter _)
  rw [perm_ext_iff_of_nodup hcn (hun.filter _)]
  intro a; simp only [mem_filter, decide_eq_true_eq]
  exact ⟨fun ha => ⟨hs a ha, ha⟩, fun ha => ha.2⟩
end

section
variable {K : Type} [DecidableEq K]

/-- The keys that a `compute_canonical` call sorts. -/
theorem mem_unionKeys (W : World) {cs : List (Counter K)} {k : K} :
    k ∈ unionKeys W.setOrder cs ↔ ∃ c ∈ cs, k ∈ c.keys := by
  have gen : ∀ l : List (Counter K), k ∈ W.setOrder (l.flatMap Counter.keys).dedup ↔ ∃ c ∈ l, k ∈ c.keys := by
    intro l
    rw [(W.setOrder_perm _).mem_iff, mem_dedup, mem_flatMap]
  match cs with
  | [] => exact gen []
  | [c] => simp [unionKeys]
  | c :: d :: t => exact gen (c :: d :: t)

theorem nodup_unionKeys (W : World) {cs : List (Counter K)} (h : ∀ c ∈ cs, c.keys.Nodup) :
    (unionKeys W.setOrder cs).Nodup := by
  match cs with
  | [] => exact ((W.setOrder_perm _).nodup_iff).2 (nodup_dedup _)
  | [c] => simpa [unionKeys] using h c
  | c :: d :: t => exact ((W.setOrder_perm _).nodup_iff).2 (nodup_dedup _)

theorem Counter.get_eq_of_mem {c : Counter K} (hc : c.keys.Nodup) {k : K} {n : ℕ} (h : (k, n) ∈ c) : c.get k = n := by
  induction c with
  | nil => simp at h
  | cons a t ih =>
    obtain ⟨k', m⟩ := a
    rw [Counter.get_cons]
    simp only [Counter.keys, map_cons, nodup_cons] at hc
    rcases mem_cons.1 h with h' | h'
    · simp only [Prod.mk.injEq] at h'; rw [if_pos h'.1, h'.2]
    · have hk : k ≠ k' := by
        rintro rfl
        exact hc.1 (mem_map_of_mem (f := (·.1)) h')
      rw [if_neg hk, ih hc.2 h']

theorem Counter.eq_map_get {c : Counter K} (hc : c.keys.Nodup) : c.keys.map (fun k => (k, c.get k)) = c := by
  rw [Counter.keys, map_map]
  conv_rhs => rw [← map_id c]
  apply map_congr_left
  intro kn h
  simp only [Function.comp, id]
  rw [Counter.get_eq_of_mem hc (n := kn.2) h]

theorem flatMap_filter_keys {β : Type*} (c : Counter K) (hc : c.keys.Nodup) (P : List (K × β))
    (hP : P.map (·.1) = c.expand) : (c.keys.flatMap fun k => P.filter (·.1 = k)) = P := by
  induction c generalizing P with
  | nil => simp [Counter.expand] at hP; subst hP; simp [Counter.keys]
  | cons a t ih =>
    obtain ⟨k, n⟩ := a
    simp only [Counter.keys, map_cons, nodup_cons] at hc
    have hx : P.map (·.1) = replicate n k ++ Counter.expand t := by rw [hP]; simp [Counter.expand]
    obtain ⟨P1, P2, rfl, h1, h2⟩ := map_eq_append_iff.1 hx
    have hk1 : ∀ q ∈ P1, q.1 = k := by
      intro q hq
      exact eq_of_mem_replicate (h1 ▸ mem_map_of_mem (f := Prod.fst) hq)
    have hk2 : ∀ q ∈ P2, q.1 ∈ Counter.keys t := by
      intro q hq
      exact Counter.mem_expand (h2 ▸ mem_map_of_mem (f := Prod.fst) hq)
    simp only [Counter.keys, map_cons, flatMap_cons]
    congr 1
    · rw [filter_append, filter_eq_self.2 (fun q hq => by simpa using hk1 q hq), filter_eq_nil_iff.2, append_nil]
      intro q hq
      have := hk2 q hq
      simp only [decide_eq_true_eq]
      rintro rfl; exact hc.1 this
    · refine Eq.trans ?_ (ih hc.2 P2 h2)
      apply flatMap_congr
      intro j hj
      rw [filter_append, filter_eq_nil_iff.2, nil_append]
      intro q hq
      simp only [decide_eq_true_eq]
      rw [hk1 q hq]; rintro rfl; exact hc.1 hj

/-- Re-canonicalising an already sorted sum changes nothing. -/
theorem sumCanon_self (size : K → ℕ) (c : Counter K) (hc : c.keys.Nodup) (p : List ℕ) (hp : p.length = c.sumSize size) :
    sumCanon size c.keys [c] [p] = (c, p) := by
  have h1 : (sumCanon size c.keys [c] [p]).1 = c := by
    rw [sumCanon_counter _ _ _ (by simp)]
    simpa using Counter.eq_map_get hc
  have hcons : Consistent c.keys c := by
    unfold Consistent
    exact (filter_eq_self.2 (by simp)).symm
  have h := sumCanon_pcs (size := size) hc [(c, p)] (by simpa using ⟨hcons, hp⟩)
  have hl := sumCanon_length (size := size) hc [(c, p)] (by simpa using ⟨hcons, hp⟩)
  simp only [map_cons, map_nil] at h hl
  have hpc : pcs size c.expand (sumCanon size c.keys [c] [p]).2 =
      c.keys.flatMap fun k => (pcs size c.expand p).filter (·.1 = k) := by
    rw [h1] at h
    rw [h]
    simp [shiftOps]
  rw [h1] at hl
  rw [flatMap_filter_keys c hc _ (pcs_fst _ _ _)] at hpc
  have e1 := pcs_flatten size c.expand p (by rw [sum_map_expand]; exact hp)
  have e2 := pcs_flatten size c.expand (sumCanon size c.keys [c] [p]).2 (by rw [sum_map_expand]; exact hl)
  rw [hpc, e1] at e2
  ext1
  · exact h1
  · exact e2.symm

theorem prodMerge_counter (u : List K) (cs : List (Counter K)) (ids : List (List (K × List ℕ))) :
    (prodMerge cs ids u).1 = (u.map fun k => (k, (cs.map fun c => c.get k).sum)).filter (·.2 ≠ 0) := by
  induction u with
  | nil => rfl
  | cons k u ih =>
    simp only [prodMerge, map_cons, filter_cons]
    split <;> simp_all

theorem prodCanon_counter (size : K → ℕ) (u : List K) (cs : List (Counter K)) (ps : List (List ℕ)) :
    (prodCanon size u cs ps).1 = (u.map fun k => (k, (cs.map fun c => c.get k).sum)).filter (·.2 ≠ 0) :=
  prodMerge_counter u cs _

/-- Transposing with the identity axis order changes nothing. -/
theorem transpose_range_data (a : NdArr ℕ) (h : a.data.length = a.shape.prod) :
    (a.transpose (range a.shape.length)).data = a.data := by
  have hs : (range a.shape.length).map (fun j => a.shape.getD j 0) = a.shape := by
    apply list_ext_getD 0 (by simp)
    intro i hi
    simp only [length_map, length_range] at hi
    rw [getD_eq_getElem' (by simpa)]; simp
  simp only [NdArr.transpose, NdArr.ofFn, hs]
  have : (indices a.shape).map (fun idx => a.get (NdArr.unperm (range a.shape.length) idx)) =
      ((indices a.shape).map (ravel a.shape)).map fun i => a.data.getD i 0 := by
    rw [map_map]
    apply map_congr_left
    intro idx hidx
    have hl := length_of_mem_indices hidx
    have : NdArr.unperm (range a.shape.length) idx = idx := by
      apply unperm_eq (by simp [AxesOK]) (by simpa using hl)
      intro k hk
      simp only [length_range] at hk
      rw [getD_range hk]
    simp only [this, NdArr.get, Function.comp]
  rw [this, map_ravel_indices, ← h]
  exact gather_range

/-- Re-canonicalising an already sorted product changes nothing. -/
theorem prodCanon_self (size : K → ℕ) (c : Counter K) (hc : c.keys.Nodup) (h0 : ∀ kc ∈ c, kc.2 ≠ 0) (p : List ℕ)
    (hp : p ~ range (c.prodSize size)) : prodCanon size c.keys [c] [p] = (c, p) := by
  have hlen := length_of_perm_range hp
  have h1 : (prodCanon size c.keys [c] [p]).1 = c := by
    rw [prodCanon_counter]
    have := Counter.eq_map_get hc
    simp only [map_cons, map_nil, sum_cons, sum_nil, add_zero]
    rw [this, filter_eq_self]
    intro a ha; simpa using h0 a ha
  have hax : (prodMerge [c] (axisIds 0 [c]) c.keys).2 = range c.expand.length := by
    rw [prodMerge_axes _ _ (by simpa using hc), labAxes]
    simp only [allKeys, flatMap_cons, flatMap_nil, append_nil]
    rw [flatMap_filter_keys c hc _ (by simp [zipIdx_map_fst]), zipIdx_map_snd, range_eq_range']
  have hord : (takeAxes 0 [p] ((NdArr.arange ([p].map length).prod).reshape ([p].map length))).data = p := by
    have e : (NdArr.arange ([p].map length).prod).reshape ([p].map length) = NdArr.ofFn ([p].map length) (ravel ([p].map length)) := by
      simp only [NdArr.arange, NdArr.reshape, NdArr.ofFn, map_ravel_indices]
    rw [e, takeAxes_ofFn [p] _ 0 _ (by simp)]
    · simp only [NdArr.ofFn, map_cons, map_nil, indices, map_flatMap]
      simp only [applyFrom, ravel, take_zero, drop_zero, nil_append, zipWith_cons_cons, zipWith_nil_right, prod_nil, mul_one, add_zero]
      have := gather_range (p := p)
      unfold gather at this
      conv_rhs => rw [← this]
      rw [← flatMap_pure_eq_map]; rfl
    · intro k hk
      simp only [length_cons, length_nil, zero_add] at hk
      obtain rfl : k = 0 := by omega
      simp only [map_cons, map_nil, zero_add]
      refine ⟨rfl, ?_⟩
      intro x hx
      have hx' : x ∈ p := by simpa using hx
      have := lt_of_perm_range hp hx'
      simpa [hlen] using this
  have h2 : (prodCanon size c.keys [c] [p]).2 = p := by
    simp only [prodCanon, hax]
    have hs : ([c].flatMap fun c => c.expand.map size) = c.expand.map size := by simp
    rw [hs]
    have := transpose_range_data ((takeAxes 0 [p] ((NdArr.arange ([p].map length).prod).reshape ([p].map length))).reshape
      (c.expand.map size)) (by
        have : p.length = (c.expand.map size).prod := by rw [hlen, prod_map_expand]
        rw [← hord] at this; exact this)
    simp only [NdArr.reshape, length_map] at this hord ⊢
    rw [this]; exact hord
  ext1
  · exact h1
  · exact h2

end
end Verif
