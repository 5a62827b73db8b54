import Verif.Lemmas.Bilinear
import Verif.Spec.Smooth

/-!
# The layers depend smoothly on inputs and parameters
-/
namespace Verif
open List DMat

section
variable {T : Type*} [NormedAddCommGroup T] [NormedSpace ℝ T] {k : WithTop ℕ∞}

theorem contDiff_dite {P : Prop} [Decidable P] {f g : T → ℝ} (hf : ContDiff ℝ k f) (hg : ContDiff ℝ k g) :
    ContDiff ℝ k fun t => if P then f t else g t := by
  by_cases h : P
  · simpa [h] using hf
  · simpa [h] using hg

theorem SmoothMat.of {m n : ℕ} {f : T → ℕ → ℕ → ℝ} (h : ∀ i j, i < m → j < n → ContDiff ℝ k fun t => f t i j) :
    SmoothMat k m n fun t => DMat.of m n (f t) := by
  refine ⟨fun t => ⟨rfl, rfl⟩, fun i j => ?_⟩
  by_cases hij : i < m ∧ j < n
  · simpa [DMat.of, hij] using h i j hij.1 hij.2
  · simpa [DMat.of, hij] using contDiff_const

theorem SmoothMat.zero (m n : ℕ) : SmoothMat k m n fun _ : T => DMat.zero m n := SmoothMat.of fun _ _ _ _ => contDiff_const

theorem SmoothMat.const (A : DMat ℝ) : SmoothMat k A.rows A.cols fun _ : T => A := ⟨fun _ => ⟨rfl, rfl⟩, fun _ _ => contDiff_const⟩

theorem SmoothVec.const (v : List ℝ) : SmoothVec k v.length fun _ : T => v := ⟨fun _ => rfl, fun _ => contDiff_const⟩

theorem SmoothMat.transpose {m n : ℕ} {A : T → DMat ℝ} (h : SmoothMat k m n A) : SmoothMat k n m fun t => (A t).transpose :=
  ⟨fun t => ⟨(h.1 t).2, (h.1 t).1⟩, fun i j => by simpa only [transpose_e] using h.2 j i⟩

theorem SmoothMat.pick {m n : ℕ} {A : T → DMat ℝ} (h : SmoothMat k m n A) (p q : List ℕ) : SmoothMat k p.length q.length fun t => (A t).pick p q :=
  SmoothMat.of fun _ _ _ _ => h.2 _ _

theorem SmoothMat.mul {m n n' l : ℕ} {A B : T → DMat ℝ} (hA : SmoothMat k m n A) (hB : SmoothMat k n' l B) : SmoothMat k m l fun t => (A t).mul (B t) := by
  have e : (fun t => (A t).mul (B t)) = fun t => DMat.of m l fun i j => ∑ c ∈ Finset.range n, (A t).e i c * (B t).e c j := by
    funext t
    rw [DMat.mul, (hA.1 t).1, (hA.1 t).2, (hB.1 t).2]
  rw [e]
  exact SmoothMat.of fun i j _ _ => ContDiff.sum fun c _ => (hA.2 i c).mul (hB.2 c j)

theorem SmoothVec.range_map {n : ℕ} {f : T → ℕ → ℝ} (h : ∀ i < n, ContDiff ℝ k fun t => f t i) : SmoothVec k n fun t => (range n).map (f t) := by
  refine ⟨fun t => by simp, fun i => ?_⟩
  by_cases hi : i < n
  · have : (fun t => ((range n).map (f t)).getD i 0) = fun t => f t i := by
      funext t
      rw [getD_eq_getElem _ _ (by simpa using hi)]
      simp
    rw [this]
    exact h i hi
  · have : (fun t => ((range n).map (f t)).getD i 0) = fun _ => 0 := by
      funext t
      exact getD_eq_default _ _ (by simpa using hi)
    rw [this]
    exact contDiff_const

theorem SmoothMat.mulVec {m n l : ℕ} {A : T → DMat ℝ} {v : T → List ℝ} (hA : SmoothMat k m n A) (hv : SmoothVec k l v) :
    SmoothVec k m fun t => (A t).mulVec (v t) := by
  have e : (fun t => (A t).mulVec (v t)) = fun t => (range m).map fun i => ∑ j ∈ Finset.range n, (A t).e i j * (v t).getD j 0 := by
    funext t
    rw [DMat.mulVec, (hA.1 t).1, (hA.1 t).2]
  rw [e]
  exact SmoothVec.range_map fun i _ => ContDiff.sum fun j _ => (hA.2 i j).mul (hv.2 j)

theorem SmoothMat.row {m n : ℕ} {A : T → DMat ℝ} (hA : SmoothMat k m n A) (i : ℕ) : SmoothVec k n fun t => (A t).row i := by
  have e : (fun t => (A t).row i) = fun t => (range n).map ((A t).e i) := by
    funext t
    rw [DMat.row, (hA.1 t).2]
  rw [e]
  exact SmoothVec.range_map fun j _ => hA.2 i j

theorem SmoothVec.unflat {l : ℕ} {v : T → List ℝ} (hv : SmoothVec k l v) (m n : ℕ) : SmoothMat k m n fun t => DMat.unflat m n (v t) :=
  SmoothMat.of fun _ _ _ _ => hv.2 _

theorem SmoothVec.sub {l : ℕ} {v : T → List ℝ} (hv : SmoothVec k l v) (i n : ℕ) : SmoothVec k (min n (l - i)) fun t => ((v t).drop i).take n := by
  refine ⟨fun t => by rw [length_take, length_drop, hv.1], fun j => ?_⟩
  by_cases hj : j < n
  · have : (fun t => (((v t).drop i).take n).getD j 0) = fun t => (v t).getD (i + j) 0 := by
      funext t
      rw [List.getD_eq_getElem?_getD, List.getD_eq_getElem?_getD, getElem?_take, if_pos hj, getElem?_drop]
    rw [this]
    exact hv.2 _
  · have : (fun t => (((v t).drop i).take n).getD j 0) = fun _ => 0 := by
      funext t
      exact getD_eq_default _ _ (by rw [length_take]; omega)
    rw [this]
    exact contDiff_const

theorem SmoothVec.take {l : ℕ} {v : T → List ℝ} (hv : SmoothVec k l v) (n : ℕ) : SmoothVec k (min n l) fun t => (v t).take n := by
  simpa using hv.sub 0 n

theorem SmoothVec.zipWith {l l' : ℕ} {u v : T → List ℝ} (hu : SmoothVec k l u) (hv : SmoothVec k l' v) {op : ℝ → ℝ → ℝ}
    (hop : ∀ {f g : T → ℝ}, ContDiff ℝ k f → ContDiff ℝ k g → ContDiff ℝ k fun t => op (f t) (g t)) :
    SmoothVec k (min l l') fun t => zipWith op (u t) (v t) := by
  refine ⟨fun t => by rw [length_zipWith, hu.1, hv.1], fun j => ?_⟩
  by_cases hj : j < l ∧ j < l'
  · have : (fun t => (List.zipWith op (u t) (v t)).getD j 0) = fun t => op ((u t).getD j 0) ((v t).getD j 0) := by
      funext t
      have h1 : j < (u t).length := by rw [hu.1]; exact hj.1
      have h2 : j < (v t).length := by rw [hv.1]; exact hj.2
      rw [getD_eq_getElem _ _ (by rw [length_zipWith]; omega), getD_eq_getElem _ _ h1, getD_eq_getElem _ _ h2, getElem_zipWith]
    rw [this]
    exact hop (hu.2 j) (hv.2 j)
  · have : (fun t => (List.zipWith op (u t) (v t)).getD j 0) = fun _ => 0 := by
      funext t
      exact getD_eq_default _ _ (by rw [length_zipWith, hu.1, hv.1]; omega)
    rw [this]
    exact contDiff_const

theorem SmoothVec.sel {l : ℕ} {v : T → List ℝ} (hv : SmoothVec k l v) (ids : List ℕ) : SmoothVec k ids.length fun t => sel (v t) ids := by
  refine ⟨fun t => by simp [Verif.sel], fun j => ?_⟩
  by_cases hj : j < ids.length
  · have : (fun t => (Verif.sel (v t) ids).getD j 0) = fun t => (v t).getD ids[j] 0 := by
      funext t
      rw [getD_eq_getElem _ _ (by simpa [Verif.sel] using hj)]
      simp [Verif.sel]
    rw [this]
    exact hv.2 _
  · have : (fun t => (Verif.sel (v t) ids).getD j 0) = fun _ => 0 := by
      funext t
      exact getD_eq_default _ _ (by simpa [Verif.sel] using hj)
    rw [this]
    exact contDiff_const

theorem SmoothMat.hcat2 {m n m' n' : ℕ} {A B : T → DMat ℝ} (hA : SmoothMat k m n A) (hB : SmoothMat k m' n' B) :
    SmoothMat k m (n + n') fun t => (A t).hcat2 (B t) := by
  have e : (fun t => (A t).hcat2 (B t)) = fun t => DMat.of m (n + n') fun i j => if j < n then (A t).e i j else (B t).e i (j - n) := by
    funext t
    rw [DMat.hcat2, (hA.1 t).1, (hA.1 t).2, (hB.1 t).2]
  rw [e]
  exact SmoothMat.of fun i j _ _ => contDiff_dite (hA.2 i j) (hB.2 i _)

theorem SmoothMat.hcat (bs : ℕ) : ∀ {l : List (T → DMat ℝ)}, (∀ M ∈ l, ∃ m n, SmoothMat k m n M) →
    ∃ m n, SmoothMat k m n fun t => DMat.hcat bs (l.map fun M => M t)
  | [], _ => ⟨bs, 0, SmoothMat.zero bs 0⟩
  | M :: l, h => by
    obtain ⟨m, n, h1⟩ := h M (by simp)
    obtain ⟨m', n', h2⟩ := SmoothMat.hcat bs (l := l) fun M hM => h M (by simp [hM])
    exact ⟨m, n + n', h1.hcat2 h2⟩

theorem flat_getD (A : DMat ℝ) (j : ℕ) : A.flat.getD j 0 = if A.cols = 0 then 0 else A.e (j / A.cols) (j % A.cols) := by
  split_ifs with h
  · exact getD_eq_default _ _ (by rw [length_flat, h]; omega)
  · have hc : 0 < A.cols := Nat.pos_of_ne_zero h
    by_cases hj : j / A.cols < A.rows
    · rw [← getD_flat A hj (Nat.mod_lt _ hc), Nat.div_add_mod']
    · rw [A.out _ _ fun h' => hj h'.1]
      refine getD_eq_default _ _ ?_
      rw [length_flat]
      exact (Nat.le_div_iff_mul_le hc).1 (not_lt.1 hj)

theorem SmoothMat.flat {m n : ℕ} {A : T → DMat ℝ} (hA : SmoothMat k m n A) : SmoothVec k (m * n) fun t => (A t).flat := by
  refine ⟨fun t => by rw [length_flat, (hA.1 t).1, (hA.1 t).2], fun j => ?_⟩
  have : (fun t => (A t).flat.getD j 0) = fun t => if n = 0 then 0 else (A t).e (j / n) (j % n) := by
    funext t
    rw [flat_getD, (hA.1 t).2]
  rw [this]
  exact contDiff_dite contDiff_const (hA.2 _ _)

theorem SmoothCall.bind {f : T → Py (List ℝ)} {F : T → List ℝ → Py (List ℝ)} (hf : SmoothCall k f)
    (hF : ∀ n y, SmoothVec k n y → SmoothCall k fun t => F t (y t)) : SmoothCall k fun t => f t >>= F t := by
  rcases hf with ⟨n, y, hy, h⟩ | ⟨e, h⟩
  · have : (fun t => f t >>= F t) = fun t => F t (y t) := by
      funext t
      rw [h]; rfl
    rw [this]
    exact hF n y hy
  · exact Or.inr ⟨e, fun t => by show f t >>= F t = _; rw [h]; rfl⟩

theorem SmoothCall.ok {n : ℕ} {y : T → List ℝ} (h : SmoothVec k n y) : SmoothCall k fun t => .ok (y t) := Or.inl ⟨n, y, h, fun _ => rfl⟩

theorem SmoothCall.linear (L : LinearL ℝ) {m n l l' : ℕ} {w : T → DMat ℝ} {b x : T → List ℝ} (hw : SmoothMat k m n w) (hb : SmoothVec k l b)
    (hx : SmoothVec k l' x) : SmoothCall k fun t => L.apply (w t) (b t) (x t) := by
  by_cases h : m = L.nout ∧ n = L.nin ∧ l = L.nout ∧ l' = L.nin
  · have : (fun t => L.apply (w t) (b t) (x t)) = fun t =>
        .ok (List.zipWith (· + ·) ((DMat.unflat m n (L.Pw.sem.mulVec (w t).flat)).mulVec (x t)) (L.Pb.sem.mulVec (b t))) := by
      funext t
      rw [LinearL.apply, if_pos (by rw [(hw.1 t).1, (hw.1 t).2, hb.1, hx.1]; exact h), (hw.1 t).1, (hw.1 t).2]
    rw [this]
    exact .ok ((((SmoothMat.const L.Pw.sem).mulVec hw.flat).unflat m n |>.mulVec hx).zipWith ((SmoothMat.const L.Pb.sem).mulVec hb) fun h1 h2 => h1.add h2)
  · exact Or.inr ⟨.value, fun t => if_neg (by rw [(hw.1 t).1, (hw.1 t).2, hb.1, hx.1]; exact h)⟩

/-- Blocks of the bilinear layer: matrices that depend smoothly on the parameter, or an exception. -/
def SmoothBlocks (k : WithTop ℕ∞) (f : T → Py (List (DMat ℝ))) : Prop :=
  (∃ l : List (T → DMat ℝ), (∀ M ∈ l, ∃ m n, SmoothMat k m n M) ∧ ∀ t, f t = .ok (l.map fun M => M t)) ∨ ∃ e, ∀ t, f t = .error e

theorem SmoothBlocks.cons {f : T → Py (List (DMat ℝ))} (hf : SmoothBlocks k f) {M : T → DMat ℝ} (hM : ∃ m n, SmoothMat k m n M) :
    SmoothBlocks k fun t => f t >>= fun rest => .ok (M t :: rest) := by
  rcases hf with ⟨l, h1, h2⟩ | ⟨e, h⟩
  · refine Or.inl ⟨M :: l, ?_, fun t => by show f t >>= _ = _; rw [h2]; rfl⟩
    intro N hN
    rcases mem_cons.1 hN with rfl | hN
    · exact hM
    · exact h1 N hN
  · exact Or.inr ⟨e, fun t => by show f t >>= _ = _; rw [h]; rfl⟩

theorem SmoothBlocks.blocks (W : World) (L : BilinearL) {l bs n : ℕ} {params : T → List ℝ} {X : T → DMat ℝ} (hp : SmoothVec k l params)
    (hX : SmoothMat k bs n X) : ∀ (c : Counter Key) (i : ℕ), SmoothBlocks k fun t => L.blocks W (params t) (X t) i c
  | [], i => Or.inl ⟨[], by simp, fun t => rfl⟩
  | (key, m) :: c, i => by
    cases hl : L.xc.lookup key with
    | none =>
      have : (fun t => L.blocks W (params t) (X t) i ((key, m) :: c)) = fun t => L.blocks W (params t) (X t) i c >>= fun rest =>
          .ok (DMat.zero bs (m * key.size W) :: rest) := by
        funext t
        simp only [BilinearL.blocks, hl, (hX.1 t).1]
      rw [this]
      exact (SmoothBlocks.blocks W L hp hX c i).cons ⟨_, _, SmoothMat.zero _ _⟩
    | some xm =>
      obtain ⟨nn, hnn⟩ : ∃ nn, nn = min xm (key.size W) := ⟨_, rfl⟩
      obtain ⟨bids, hbids⟩ : ∃ bids, bids = (L.ids.lookup key).getD [] := ⟨_, rfl⟩
      have hsub := hp.sub i (m * nn)
      by_cases h : min (m * nn) (l - i) = m * nn ∧ bids.length = nn * key.size W
      · have : (fun t => L.blocks W (params t) (X t) i ((key, m) :: c)) = fun t => L.blocks W (params t) (X t) (i + m * nn) c >>= fun rest =>
            .ok ((DMat.unflat (m * key.size W) bs ((DMat.unflat m nn (((params t).drop i).take (m * nn))).mul
              (DMat.unflat nn (key.size W * bs) ((X t).pick (range bs) bids).transpose.flat)).flat).transpose :: rest) := by
          funext t
          simp only [BilinearL.blocks, hl, ← hnn, ← hbids, (hX.1 t).1]
          rw [if_pos ⟨by rw [hsub.1]; exact h.1, h.2⟩]
        rw [this]
        exact (SmoothBlocks.blocks W L hp hX c (i + m * nn)).cons
          ⟨_, _, (((hsub.unflat m nn).mul ((hX.pick (range bs) bids).transpose.flat.unflat nn (key.size W * bs))).flat.unflat _ _).transpose⟩
      · refine Or.inr ⟨.type, fun t => ?_⟩
        simp only [BilinearL.blocks, hl, ← hnn, ← hbids]
        rw [if_neg]
        rw [hsub.1]
        exact h

theorem applyVec_ok {W : World} {c : ℝ} {L : BilinearL} {params x : List ℝ} {Ws : List (DMat ℝ)} (hn : x.length = L.nin)
    (hW : L.project W params (DMat.of 1 x.length fun _ j => x.getD j 0) = .ok Ws) :
    L.applyVec W c params x = .ok ((DMat.of 1 L.nout fun b i =>
      c * ((Ws.getD b (DMat.zero 0 0)).mulVec ((DMat.of 1 x.length fun _ j => x.getD j 0).row b)).getD i 0).row 0) := by
  unfold BilinearL.applyVec BilinearL.apply
  rw [if_pos (show (DMat.of 1 x.length fun _ j => x.getD j 0).cols = L.nin from hn), hW]
  rfl

theorem applyVec_err {W : World} {c : ℝ} {L : BilinearL} {params x : List ℝ} {e : PyErr} (hn : x.length = L.nin)
    (hW : L.project W params (DMat.of 1 x.length fun _ j => x.getD j 0) = .error e) : L.applyVec W c params x = .error e := by
  unfold BilinearL.applyVec BilinearL.apply
  rw [if_pos (show (DMat.of 1 x.length fun _ j => x.getD j 0).cols = L.nin from hn), hW]
  rfl

theorem applyVec_shape {W : World} {c : ℝ} {L : BilinearL} {params x : List ℝ} (hn : x.length ≠ L.nin) : L.applyVec W c params x = .error .type := by
  unfold BilinearL.applyVec BilinearL.apply
  rw [if_neg (show (DMat.of 1 x.length fun _ j => x.getD j 0).cols ≠ L.nin from hn)]
  rfl

theorem project_ok {W : World} {L : BilinearL} {params : List ℝ} {X : DMat ℝ} {Ms : List (DMat ℝ)} (hX : X.rows = 1)
    (h : L.blocks W params X 0 L.Wc = .ok Ms) :
    L.project W params X = if L.invPerm.length = L.nout * L.nin then
      .ok [DMat.unflat L.nout L.nin (((DMat.hcat 1 Ms).pick (range 1) L.invPerm).row 0)] else .error .type := by
  unfold BilinearL.project
  rw [h, hX]
  rfl

theorem project_err {W : World} {L : BilinearL} {params : List ℝ} {X : DMat ℝ} {e : PyErr} (h : L.blocks W params X 0 L.Wc = .error e) :
    L.project W params X = .error e := by
  unfold BilinearL.project
  rw [h]
  rfl

theorem SmoothCall.bilinear (W : World) (c : ℝ) (L : BilinearL) {l n : ℕ} {params x : T → List ℝ} (hp : SmoothVec k l params) (hx : SmoothVec k n x) :
    SmoothCall k fun t => L.applyVec W c (params t) (x t) := by
  have hX : SmoothMat k 1 n fun t => DMat.of 1 (x t).length fun _ j => (x t).getD j 0 := by
    have : (fun t => DMat.of 1 (x t).length fun _ j => (x t).getD j 0) = fun t => DMat.of 1 n fun _ j => (x t).getD j 0 := by
      funext t
      rw [hx.1]
    rw [this]
    exact SmoothMat.of fun _ j _ _ => hx.2 j
  by_cases hn : n = L.nin
  · have hn' : ∀ t, (x t).length = L.nin := fun t => (hx.1 t).trans hn
    rcases SmoothBlocks.blocks W L hp hX L.Wc 0 with ⟨Ms, h1, h2⟩ | ⟨e, h⟩
    · obtain ⟨m', n', hc⟩ := SmoothMat.hcat 1 h1
      have hA := hc.pick (range 1) L.invPerm
      have hpr := fun t => project_ok (W := W) (L := L) (X := DMat.of 1 (x t).length fun _ j => (x t).getD j 0) rfl (h2 t)
      by_cases hs : L.invPerm.length = L.nout * L.nin
      · refine Or.inl ⟨L.nout, _, ?_, fun t => applyVec_ok (hn' t) ((hpr t).trans (if_pos hs))⟩
        refine SmoothMat.row (m := 1) (SmoothMat.of fun b i hb _ => contDiff_const.mul ?_) 0
        have : b = 0 := by omega
        subst this
        exact (((hA.row 0).unflat L.nout L.nin).mulVec (hX.row 0)).2 i
      · exact Or.inr ⟨.type, fun t => applyVec_err (hn' t) ((hpr t).trans (if_neg hs))⟩
    · exact Or.inr ⟨e, fun t => applyVec_err (hn' t) (project_err (h t))⟩
  · exact Or.inr ⟨.type, fun t => applyVec_shape (by rw [hx.1]; exact hn)⟩

theorem SmoothCall.gated (W : World) {act : ℝ → ℝ} (hact : ContDiff ℝ k act) (rep : Rep) {n : ℕ} {x : T → List ℝ} (hx : SmoothVec k n x) :
    SmoothCall k fun t => gatedNonlinearity W act rep (x t) := by
  unfold gatedNonlinearity
  cases gateIndices W rep with
  | error e => exact Or.inr ⟨e, fun t => rfl⟩
  | ok idx =>
    cases idx with
    | floats => exact Or.inr ⟨.type, fun t => rfl⟩
    | ints ids => exact .ok ((hx.sel ids).zipWith (hx.take (rep.size W)) fun h1 h2 => (hact.comp h1).mul h2)

/-- Parameters of a block that depend smoothly on the parameter `t`. -/
structure SmoothBlock (k : WithTop ℕ∞) (p : T → BlockParams ℝ) : Prop where
  w : ∃ m n, SmoothMat k m n fun t => (p t).w
  b : ∃ n, SmoothVec k n fun t => (p t).b
  bw : ∃ n, SmoothVec k n fun t => (p t).bw

theorem SmoothCall.block (W : World) (c : ℝ) {act : ℝ → ℝ} (hact : ContDiff ℝ k act) (B : Block ℝ) {p : T → BlockParams ℝ} (hp : SmoothBlock k p)
    {n : ℕ} {x : T → List ℝ} (hx : SmoothVec k n x) : SmoothCall k fun t => B.apply W c act (p t) (x t) := by
  obtain ⟨_, _, hw⟩ := hp.w
  obtain ⟨_, hb⟩ := hp.b
  obtain ⟨_, hbw⟩ := hp.bw
  refine SmoothCall.bind (SmoothCall.linear B.lin hw hb hx) fun m lin hl => ?_
  refine SmoothCall.bind (F := fun t bi => gatedNonlinearity W act B.rep (List.zipWith (· + ·) bi (lin t))) (SmoothCall.bilinear W c B.bil hbw hl) fun m' bi hbi => ?_
  exact SmoothCall.gated W hact B.rep (hbi.zipWith hl fun h1 h2 => h1.add h2)

theorem SmoothCall.blocks (W : World) (c : ℝ) {act : ℝ → ℝ} (hact : ContDiff ℝ k act) : ∀ (Bs : List (Block ℝ)) (ps : List (T → BlockParams ℝ)),
    (∀ p ∈ ps, SmoothBlock k p) → ∀ {n : ℕ} {x : T → List ℝ}, SmoothVec k n x →
      SmoothCall k fun t => applyBlocks W c act (Bs.zip (ps.map fun p => p t)) (x t)
  | [], _, _, _, _, hx => by simpa [applyBlocks] using SmoothCall.ok hx
  | _ :: _, [], _, _, _, hx => by simpa [applyBlocks] using SmoothCall.ok hx
  | B :: Bs, p :: ps, hp, _, _, hx => by
    have := SmoothCall.bind (F := fun (t : T) (y : List ℝ) => applyBlocks W c act (Bs.zip (ps.map fun q : T → BlockParams ℝ => q t)) y)
      (SmoothCall.block W c hact B (hp p (by simp)) hx) fun _ _ hy => SmoothCall.blocks W c hact Bs ps (fun q hq => hp q (by simp [hq])) hy
    exact this

end
end Verif
