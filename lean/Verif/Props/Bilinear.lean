import Verif.Lemmas.Bilinear
import Verif.Props.Gate

/-!
# Bilinear layers (C31, C32, C41)
-/
namespace Verif
open List
variable {W : World} {g : Gid} {N : ℕ} {R : Type} [CommRing R] {choose : Key → List ℕ} {out : Rep} {x : SRep}

/-- `bilinear_weights(out,in)` returns, whatever the random choices, when `in` is a sum; otherwise it raises `AttributeError`. -/
theorem C31_builds (hW : W.SingleOK g N) (choose : Key → List ℕ) (ho : out.Over W g N) {r : Rep} (hr : r.Over W g N)
    (hN : out.size W * r.size W ≤ N) :
    (∀ s, r = .sum s → ∃ L, bilinearWeights W choose out r = .ok L) ∧
    ((∀ s, r ≠ .sum s) → bilinearWeights W choose out r = .error .attribute) := by
  constructor
  · rintro s rfl
    obtain ⟨w, -, -, -, h⟩ := bilinearWeights_ok hW choose ho hr hN
    exact ⟨_, h⟩
  · intro h
    rcases hr.isSumOrKey with ⟨k, rfl⟩ | ⟨s, rfl⟩
    · obtain ⟨t, h1, -, h2, -⟩ := Rep.rshift_spec hW hr.wf ho.wf hr.key ho.key hN
      unfold bilinearWeights
      have h5 := Rep.canon_wf h2
      simp only [h1, bind, Except.bind, h5]
      cases Rep.base W t <;> rfl
    · exact absurd rfl (h s)

/-- C31: for every parameter vector and every random choice, the weights are an equivariant function of the input:
`W(ρ_in(g)x)·ρ_in(g) = ρ_out(g)·W(x)`. -/
theorem C31_weights (hW : W.SingleOK g N) (ho : out.Over W g N) (hx : (Rep.sum x).Over W g N) (hN : out.size W * x.size W ≤ N)
    (hc : ChoiceOK W x choose) {L : BilinearL} (hL : bilinearWeights W choose out (.sum x) = .ok L) {I : Interp R} (hI : I.Dual W)
    {params : List R} (hp : L.dims ≤ params.length) {v : List R} (hv : v.length = x.size W) :
    ∃ M M', L.project W params (rowMat v) = .ok [M] ∧ L.project W params (rowMat (((Rep.sum x).mat I).mulVec v)) = .ok [M'] ∧
      M.rows = out.size W ∧ M.cols = x.size W ∧ M'.rows = out.size W ∧ M'.cols = x.size W ∧
      M'.mul ((Rep.sum x).mat I) = (out.mat I).mul M := by
  obtain ⟨w, h1, h2, h3, h4⟩ := bilinearWeights_ok hW choose ho hx hN
  rw [h4] at hL
  have := Except.ok.inj hL
  subst this
  have hxw : x.WF W := hx.wf
  have hww : w.WF W := h2.wf
  have hf := bilinearOf_fits (out := out) (w := w) hxw hc
  rw [bilinearOf_dims (hxw.cnt.st.nodup hxw.cnt.sorted) (hww.cnt.st.nodup hww.cnt.sorted)] at hp
  have hi : (bilinearOf W choose out x w).invPerm.length = (bilinearOf W choose out x w).nout * (bilinearOf W choose out x w).nin := by
    show (argsort w.perm).length = out.size W * x.size W
    rw [length_of_perm_range (argsort_perm w.perm), length_of_perm_range hww.perm]; exact h3
  have hrow : ∀ u : List R, (rowMat u).row 0 = u := fun u => DMat.row_rowMat u
  have e : ∀ u : List R, (bilinearOf W choose out x w).project W params (rowMat u) = .ok [(bilinearOf W choose out x w).mat W params u] := by
    intro u
    rw [BilinearL.project_ok hf hp hi]
    show Except.ok [(bilinearOf W choose out x w).mat W params ((rowMat u).row 0)] = _
    rw [hrow]
  exact ⟨_, _, e _, e _, rfl, rfl, rfl, rfl, mat_mul_rho hW ho hx hN h1 hc hI params hv⟩

/-- C31: a bilinear layer is equivariant. -/
theorem C31_layer (hW : W.SingleOK g N) (ho : out.Over W g N) (hx : (Rep.sum x).Over W g N) (hN : out.size W * x.size W ≤ N)
    (hc : ChoiceOK W x choose) {L : BilinearL} (hL : bilinearWeights W choose out (.sum x) = .ok L) {I : Interp R} (hI : I.Dual W)
    (c : R) {params : List R} (hp : L.dims ≤ params.length) :
    Commutes (x.size W) (out.size W) (L.applyVec W c params) ((Rep.sum x).mat I) (out.mat I) := by
  obtain ⟨w, h1, h2, h3, h4⟩ := bilinearWeights_ok hW choose ho hx hN
  rw [h4] at hL
  have := Except.ok.inj hL
  subst this
  exact bilinear_commutes hW ho hx hN h1 hc hI c hp

/-- C32: with the number of parameters that `bilinear_weights` reports (or more) the projection returns one matrix of the right
shape for each row; the parameters beyond that number are not read; with fewer it raises. -/
theorem C32_parameters (hW : W.SingleOK g N) (ho : out.Over W g N) (hx : (Rep.sum x).Over W g N) (hN : out.size W * x.size W ≤ N)
    (hc : ChoiceOK W x choose) {L : BilinearL} (hL : bilinearWeights W choose out (.sum x) = .ok L) (params : List R) (X : DMat R) :
    (L.dims ≤ params.length → ∃ Ms, L.project W params X = .ok Ms ∧ Ms.length = X.rows ∧
      (∀ M ∈ Ms, M.rows = out.size W ∧ M.cols = x.size W) ∧ L.project W (params.take L.dims) X = .ok Ms) ∧
    (params.length < L.dims → L.project W params X = .error .type) := by
  obtain ⟨w, h1, h2, h3, h4⟩ := bilinearWeights_ok hW choose ho hx hN
  rw [h4] at hL
  have := Except.ok.inj hL
  subst this
  have hxw : x.WF W := hx.wf
  have hww : w.WF W := h2.wf
  have hf := bilinearOf_fits (out := out) (w := w) hxw hc
  have hd := bilinearOf_dims (W := W) (choose := choose) (out := out) (hxw.cnt.st.nodup hxw.cnt.sorted) (hww.cnt.st.nodup hww.cnt.sorted)
  have hi : (bilinearOf W choose out x w).invPerm.length = (bilinearOf W choose out x w).nout * (bilinearOf W choose out x w).nin := by
    show (argsort w.perm).length = out.size W * x.size W
    rw [length_of_perm_range (argsort_perm w.perm), length_of_perm_range hww.perm]; exact h3
  constructor
  · intro hp
    refine ⟨_, BilinearL.project_ok hf (hd ▸ hp) hi X, by simp, ?_, ?_⟩
    · intro M hM
      obtain ⟨b, -, rfl⟩ := mem_map.1 hM
      exact ⟨rfl, rfl⟩
    · rw [BilinearL.project_ok hf (by rw [length_take, ← hd]; omega) hi X]
      congr 1
      refine map_congr_left fun b _ => ?_
      unfold BilinearL.mat
      rw [BilinearL.wvec_congr (N := (bilinearOf W choose out x w).dims) (params' := params) _ ?_ _ 0 (by rw [← hd]; omega)]
      intro i hi
      rw [getD_eq_getElem _ _ (by rw [length_take]; omega), getElem_take, getD_eq_getElem _ _ (by omega)]
  · intro hp
    unfold BilinearL.project
    rw [BilinearL.blocks_short params X _ 0 (by omega) (by rw [← hd]; omega)]
    rfl

/-- C32: which parameters are used where.  The `j`-th copy of the summand `k` in the weights is the combination of the chosen
copies of `k` in the input whose coefficients are the parameters from position `(parameters of the summands before k) + j·n` on,
`n` the number of copies chosen; summands that are `Scalar` or do not occur in the input get zero weights. -/
theorem C32_layout (hW : W.SingleOK g N) (ho : out.Over W g N) (hx : (Rep.sum x).Over W g N) (hN : out.size W * x.size W ≤ N)
    (hc : ChoiceOK W x choose) {L : BilinearL} (hL : bilinearWeights W choose out (.sum x) = .ok L)
    {params : List R} (hp : L.dims ≤ params.length) (v : List R) :
    ∃ (w : SRep) (M : DMat R), Rep.rshift W (.sum x) out = .ok (.sum w) ∧ L.project W params (rowMat v) = .ok [M] ∧
      ∀ (pre post : Counter Key) (k : Key) (m : ℕ), w.c = pre ++ (k, m) :: post → ∀ j < m, ∀ t < k.size W,
        let n := fun k => if k = .scalar then 0 else min (Counter.get x.c k) (k.size W)
        ((rowsAt W w k M.flat).getD j []).getD t 0 = ∑ l ∈ Finset.range (n k),
          params.getD ((pre.map fun kc => kc.2 * n kc.1).sum + j * n k + l) 0 * ((rowsAt W x k v).getD ((choose k).getD l 0) []).getD t 0 := by
  obtain ⟨w, h1, h2, h3, h4⟩ := bilinearWeights_ok hW choose ho hx hN
  rw [h4] at hL
  have := Except.ok.inj hL
  subst this
  have hxw : x.WF W := hx.wf
  have hww : w.WF W := h2.wf
  have hf := bilinearOf_fits (out := out) (w := w) hxw hc
  have hd := bilinearOf_dims (W := W) (choose := choose) (out := out) (hxw.cnt.st.nodup hxw.cnt.sorted) (hww.cnt.st.nodup hww.cnt.sorted)
  have hi : (bilinearOf W choose out x w).invPerm.length = (bilinearOf W choose out x w).nout * (bilinearOf W choose out x w).nin := by
    show (argsort w.perm).length = out.size W * x.size W
    rw [length_of_perm_range (argsort_perm w.perm), length_of_perm_range hww.perm]; exact h3
  refine ⟨w, (bilinearOf W choose out x w).mat W params v, h1, ?_, ?_⟩
  · rw [BilinearL.project_ok hf (hd ▸ hp) hi]
    show Except.ok [(bilinearOf W choose out x w).mat W params ((rowMat v).row 0)] = _
    rw [DMat.row_rowMat]
  · intro pre post k m hw j hj t ht n
    have hadv : ∀ (k : Key) (m : ℕ), (bilinearOf W choose out x w).adv W k m = m * n k := by
      intro k m
      unfold BilinearL.adv
      rw [bilinearOf_xc]
      by_cases hk : k = .scalar
      · simp [n, hk]
      · simp only [n, hk, Counter.get, if_false]
        cases x.c.lookup k <;> simp
    have hused : (bilinearOf W choose out x w).used W pre = (pre.map fun kc => kc.2 * n kc.1).sum := by
      unfold BilinearL.used; congr 1; exact map_congr_left fun kc _ => hadv _ _
    have hnd : k ∉ pre.keys := by
      have := hww.cnt.st.nodup hww.cnt.sorted
      rw [hw, Counter.keys, map_append, map_cons] at this
      intro hmem
      exact (nodup_append.1 this).2.2 k hmem k (by simp) rfl
    have hrow : (rowsAt W w k ((bilinearOf W choose out x w).mat W params v).flat).getD j [] =
        (bilinearOf W choose out x w).piece W params v ((pre.map fun kc => kc.2 * n kc.1).sum) k j := by
      unfold rowsAt
      rw [asDict_mat hww h3, hw, BilinearL.wdict_lookup _ _ _ k m post pre hnd, hused, zero_add]
      show ((range m).map _).getD j [] = _
      rw [getD_eq_getElem (l := (range m).map _) (d := []) (by simpa using hj)]
      simp
    rw [hrow]
    cases hl : (bilinearOf W choose out x w).xc.lookup k with
    | none =>
      have hn : n k = 0 := by
        have := hadv k 1
        unfold BilinearL.adv at this
        rw [hl] at this
        simp only [Nat.one_mul] at this
        exact this.symm
      rw [hn]
      unfold BilinearL.piece
      rw [hl]
      simp only [Finset.range_zero, Finset.sum_empty]
      rw [getD_eq_getElem _ _ (by simpa using ht), getElem_replicate]
    | some xm =>
      have hn : n k = min xm (k.size W) := by
        have := hadv k 1
        unfold BilinearL.adv at this
        rw [hl] at this
        simp only at this
        omega
      rw [piece_getD hxw hc hl _ _ _ _ ht, hn]
      exact Finset.sum_congr rfl fun l _ => by rw [Nat.add_assoc]

/-- C41: on a batch, a bilinear layer treats the rows independently. -/
theorem C41_batch (hW : W.SingleOK g N) (ho : out.Over W g N) (hx : (Rep.sum x).Over W g N) (hN : out.size W * x.size W ≤ N)
    (hc : ChoiceOK W x choose) {L : BilinearL} (hL : bilinearWeights W choose out (.sum x) = .ok L) (c : R) {params : List R}
    (hp : L.dims ≤ params.length) {X : DMat R} (hX : X.cols = x.size W) :
    ∃ Y, L.apply W c params X = .ok Y ∧ Y.rows = X.rows ∧ Y.cols = out.size W ∧
      ∀ b < X.rows, L.applyVec W c params (X.row b) = .ok (Y.row b) := by
  obtain ⟨w, h1, h2, h3, h4⟩ := bilinearWeights_ok hW choose ho hx hN
  rw [h4] at hL
  have := Except.ok.inj hL
  subst this
  have hxw : x.WF W := hx.wf
  have hww : w.WF W := h2.wf
  have hf := bilinearOf_fits (out := out) (w := w) hxw hc
  have hd := bilinearOf_dims (W := W) (choose := choose) (out := out) (hxw.cnt.st.nodup hxw.cnt.sorted) (hww.cnt.st.nodup hww.cnt.sorted)
  have hi : (bilinearOf W choose out x w).invPerm.length = (bilinearOf W choose out x w).nout * (bilinearOf W choose out x w).nin := by
    show (argsort w.perm).length = out.size W * x.size W
    rw [length_of_perm_range (argsort_perm w.perm), length_of_perm_range hww.perm]; exact h3
  refine ⟨_, BilinearL.apply_ok hf (hd ▸ hp) hi c hX, rfl, rfl, fun b hb => ?_⟩
  rw [BilinearL.applyVec_ok hf (hd ▸ hp) hi c (by rw [DMat.length_row]; exact hX)]
  congr 1
  have hr : ((bilinearOf W choose out x w).mat W params (X.row b)).rows = out.size W := rfl
  refine DMat.vec_ext (by simp [hr, DMat.of]; rfl) fun j hj => ?_
  have hj' : j < out.size W := by simpa [hr] using hj
  rw [DMat.getD_row]
  refine Eq.trans ?_ (DMat.of_e hb hj').symm
  rw [getD_eq_getElem _ _ hj, getElem_map, getD_eq_getElem]

/-- choices for `exS`: copy 1, then copy 0 of the vector -/
def exChoose : Key → List ℕ := fun k => if k = .scalar then [0] else if k = .fac (.atom (.vec 0 (some 0))) then [1, 0] else []

example : ChoiceOK exW exS exChoose := by
  intro k
  by_cases h1 : k = .scalar
  · subst h1; decide +kernel
  · by_cases h2 : k = .fac (.atom (.vec 0 (some 0)))
    · subst h2; decide +kernel
    · have hb1 : (k == Key.scalar) = false := by simpa using h1
      have hb2 : (k == Key.fac (.atom (.vec 0 (some 0)))) = false := by simpa using h2
      simp [exChoose, h1, h2, Counter.get, exS, lookup_cons, hb1, hb2]

example : ∃ L, bilinearWeights exW exChoose (.sum exS) (.sum exS) = .ok L ∧ L.dims = 8 ∧ L.ids.lookup (.fac (.atom (.vec 0 (some 0)))) = some [4, 5, 6, 1, 2, 3] :=
  ⟨_, rfl, by decide +kernel, by decide +kernel⟩

end Verif
