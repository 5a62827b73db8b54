import Verif.Model.FrontEnds
import Verif.Lemmas.Network

/-! The front ends: rows of a batch. -/
namespace Verif
open List
variable {R : Type} [CommRing R]

theorem FrontEnd.repW_eq (W : World) (F : FrontEnd) (a b : Rep) : F.repW W a b = Rep.rshift W a b := by cases F <;> rfl

section init
variable (W : World) (gens : Gid → GenSet R) (solve : ℕ → LinOp R → Py (DMat R)) (rng : Rng)

theorem FrontEnd.linearInit_eq (F : FrontEnd) (a b : Rep) : F.linearInit W gens solve a b = LinearL.init W gens solve a b := by
  unfold FrontEnd.linearInit LinearL.init
  simp only [FrontEnd.repW_eq]

theorem FrontEnd.blockInit_eq (F : FrontEnd) (a b : Rep) : F.blockInit W gens solve rng a b = Block.init W gens solve rng a b := by
  unfold FrontEnd.blockInit Block.init
  simp only [FrontEnd.linearInit_eq]

theorem FrontEnd.emlp_eq (F : FrontEnd) (fuel : ℕ) (repIn repOut : Rep) (g : Gid) (ch : Ch) (n : ℕ) :
    F.emlp W gens solve rng fuel repIn repOut g ch n = Emlp.init W gens solve rng fuel repIn repOut g ch n := by
  unfold FrontEnd.emlp Emlp.init FrontEnd.build Emlp.build
  simp only [FrontEnd.linearInit_eq, FrontEnd.blockInit_eq]
  cases ch <;> rfl

end init

section
variable {n m k : ℕ}

theorem Rowwise.comp {f f' : DMat R → Py (DMat R)} {h h' : List R → Py (List R)} (hf : Rowwise n m f h) (hf' : Rowwise m k f' h') :
    Rowwise n k (fun X => f X >>= f') (fun x => h x >>= h') := by
  intro X hX
  obtain ⟨Y, h1, h2, h3, h4⟩ := hf X hX
  obtain ⟨Z, k1, k2, k3, k4⟩ := hf' Y h3
  refine ⟨Z, ?_, by rw [k2, h2], k3, fun b hb => ?_⟩
  · show (f X >>= f') = _; rw [h1]; exact k1
  · show (h (X.row b) >>= h') = _; rw [h4 b hb]; exact k4 b (by rw [h2]; exact hb)

theorem Rowwise.addSelf {f : DMat R → Py (DMat R)} {h : List R → Py (List R)} (hf : Rowwise n n f h) :
    Rowwise n n (fun X => do let Y ← f X; .ok (Y.add X)) (fun x => do let y ← h x; .ok (zipWith (· + ·) y x)) := by
  intro X hX
  obtain ⟨Y, h1, h2, h3, h4⟩ := hf X hX
  refine ⟨Y.add X, ?_, h2, h3, fun b hb => ?_⟩
  · show (f X >>= fun Y => Except.ok (Y.add X)) = _; rw [h1]; rfl
  · show (h (X.row b) >>= fun y => Except.ok (zipWith (· + ·) y (X.row b))) = _
    rw [h4 b hb]
    show Except.ok _ = Except.ok _
    congr 1
    refine DMat.vec_ext ?_ fun j hj => ?_
    · rw [length_zipWith, DMat.length_row, DMat.length_row, DMat.length_row, hX, h3, Nat.min_self]; exact h3.symm
    · have hj' : j < n := by rw [length_zipWith, DMat.length_row, DMat.length_row, hX, h3, Nat.min_self] at hj; exact hj
      rw [DMat.getD_row, DMat.add_e (A := Y) (B := X) (by rw [h2]; exact hb) (by rw [h3]; exact hj'), getD_eq_getElem _ _ hj, getElem_zipWith,
        ← getD_eq_getElem _ 0, ← getD_eq_getElem _ 0, DMat.getD_row, DMat.getD_row]

end

theorem linear_row (X A : DMat R) (b : List R) (hX : X.cols = A.cols) (hb : b.length = A.rows) {i : ℕ} (hi : i < X.rows) :
    ((X.mul A.transpose).addRow b).row i = zipWith (· + ·) (A.mulVec (X.row i)) b := by
  have hlen : (zipWith (· + ·) (A.mulVec (X.row i)) b).length = A.rows := by simp [hb]
  have hc : ((X.mul A.transpose).addRow b).cols = A.rows := rfl
  refine DMat.vec_ext (by rw [DMat.length_row, hlen, hc]) fun j hj => ?_
  have hj' : j < A.rows := by rw [DMat.length_row, hc] at hj; exact hj
  rw [DMat.getD_row, DMat.addRow, DMat.of_e (by exact hi) (by exact hj'), getD_eq_getElem _ _ (show j < (zipWith (· + ·) (A.mulVec (X.row i)) b).length by rw [hlen]; exact hj'), getElem_zipWith,
    ← getD_eq_getElem _ 0, ← getD_eq_getElem _ 0, DMat.mul_e (A := X) (B := A.transpose) hi hj', DMat.getD_mulVec hj', hX]
  congr 1
  refine Finset.sum_congr rfl fun l _ => ?_
  rw [DMat.getD_row, DMat.transpose_e, mul_comm]

theorem LinearL.Good.rowwise {W : World} {gens : Gid → GenSet R} {a b : Rep} {L : LinearL R} (h : L.Good W gens a b) (F : FrontEnd) {w : DMat R}
    {β : List R} (hw : w.rows = L.nout) (hw' : w.cols = L.nin) (hβ : β.length = L.nout) :
    Rowwise (a.size W) (b.size W) (F.linear L w β) (L.apply w β) := by
  intro X hX
  obtain ⟨r, hr, hz, -, hsq, -⟩ := h.w
  have hX' : X.cols = L.nin := by rw [hX, h.nin]
  have hPb : (L.Pb.sem.mulVec β).length = w.rows := by rw [DMat.length_mulVec, h.b.1.1, hw, h.nout]
  refine ⟨(X.mul (DMat.unflat w.rows w.cols (L.Pw.sem.mulVec w.flat)).transpose).addRow (L.Pb.sem.mulVec β), ?_, rfl, ?_, fun i hi => ?_⟩
  · cases F with
    | objax => unfold FrontEnd.linear; simp only [hw, hw', hβ, hX', and_self, if_true]
    | torch => unfold FrontEnd.linear; simp only [hw, hw', hβ, hX', and_self, if_true]
    | flax =>
      have hc : L.Pw.sem.cols = L.nout * L.nin := by rw [hsq.2, hz, h.nout, h.nin]
      unfold FrontEnd.linear; simp only [hw, hw', hβ, hX', hc, and_self, if_true]
    | haiku =>
      unfold FrontEnd.linear; simp only [hw, hw', hβ, and_self, if_true]
      exact if_pos hX'
  · show w.rows = _; rw [hw, h.nout]
  · unfold LinearL.apply
    rw [if_pos ⟨hw, hw', hβ, by rw [DMat.length_row, hX']⟩]
    dsimp only
    rw [linear_row X (DMat.unflat w.rows w.cols (L.Pw.sem.mulVec w.flat)) _ (by rw [hX', ← hw']; rfl) hPb hi]

theorem setAt_length (l ids : List ℕ) (v : ℕ) : (setAt l ids v).length = l.length := by
  unfold setAt
  induction ids generalizing l with
  | nil => rfl
  | cons i t ih => rw [foldl_cons, ih, length_set]

theorem gateLoop_length (W : World) (ch : ℕ) (perm : List ℕ) : ∀ (ks : List Key) (i num : ℕ) (l : List ℕ),
    (gateLoop W ch perm i num ks l).length = l.length := by
  intro ks
  induction ks with
  | nil => intro i num l; rfl
  | cons k t ih =>
    intro i num l
    unfold gateLoop
    split_ifs
    · rw [ih, setAt_length]
    · exact ih _ _ _

theorem gated_rowwise {W : World} {s : SRep} (h : s.WF W) (hc : s.perm = range (s.size W)) (act : R → R) {n : ℕ} (hn : s.size W ≤ n) :
    Rowwise n (s.size W) (gatedBatch W act (.sum s)) (gatedNonlinearity W act (.sum s)) := by
  intro X hX
  have hcan : s.canonical = true := by
    unfold SRep.canonical
    rw [beq_iff_eq, length_of_perm_range h.perm, hc]
  obtain ⟨ids, hids, hl⟩ : ∃ ids, gateIndices W (.sum s) = .ok (.ints ids) ∧ ids.length = s.size W :=
    ⟨gateLoop W (s.size W) s.perm 0 0 s.c.expand (range (s.size W)), if_pos hcan, by rw [gateLoop_length, length_range]⟩
  have hm : min (Rep.size W (.sum s)) X.cols = s.size W := by rw [hX]; exact Nat.min_eq_left hn
  unfold gatedBatch gatedNonlinearity
  rw [hids]
  refine ⟨DMat.of X.rows (s.size W) fun b j => act ((X.pick (range X.rows) ids).e b j) * (X.pick (range X.rows) (range (s.size W))).e b j, ?_, rfl, rfl, fun b hb => ?_⟩
  · show (if (X.pick (range X.rows) ids).cols = (X.pick (range X.rows) (range (min (Rep.size W (.sum s)) X.cols))).cols then _ else _) = _
    rw [hm, if_pos (by simp [DMat.pick, DMat.of, hl])]
    congr 2
    simp [DMat.pick]
  · show Except.ok _ = Except.ok _
    congr 1
    have hlen : (zipWith (fun g v => act g * v) (sel (X.row b) ids) ((X.row b).take (Rep.size W (.sum s)))).length = s.size W := by
      rw [length_zipWith, sel, length_map, length_take, DMat.length_row, hl, hm, Nat.min_self]
    refine DMat.vec_ext (by rw [hlen, DMat.length_row]; rfl) fun j hj => ?_
    have hj' : j < s.size W := by rw [hlen] at hj; exact hj
    rw [getD_eq_getElem _ _ hj, getElem_zipWith, ← getD_eq_getElem _ 0, getElem_take, ← getD_eq_getElem _ 0, getD_sel (by rw [hl]; exact hj'), DMat.getD_row, DMat.getD_row,
      DMat.getD_row, DMat.of_e hb hj', DMat.pick_e (by simpa using hb) (by rw [hl]; exact hj'), DMat.pick_e (by simpa using hb) (by simpa using hj'), getD_range hb,
      getD_range hj']

variable [StarRing R] {W : World} {g : Gid} {N : ℕ} {gens : Gid → GenSet R}

omit [StarRing R] in
theorem Block.Good.rowwise {a r : Rep} {B : Block R} (h : B.Good W g N gens a r) (hr : r.Over W g N) (hc : r.CanonicalSum W)
    (F : FrontEnd) (c : R) (act : R → R) {p : BlockParams R} (hp : p.Shaped B) :
    Rowwise (a.size W) (r.size W) (F.block W c act B p) (B.apply W c act p) := by
  obtain ⟨g1, h1, hl⟩ := h.lin
  obtain ⟨s, rfl, hs⟩ := hc
  have c1 := hl.rowwise F hp.rows hp.cols hp.b
  rw [h1.size] at c1
  have c2 := (h.batch c p.bw hp.bw.ge).addSelf
  have c3 := gated_rowwise (R := R) (n := (Rep.sum s).size W + (Rep.sum s).gates W) hr.wf hs act (Nat.le_add_right _ _)
  have := (c1.comp c2).comp c3
  intro X hX
  obtain ⟨Z, hz1, hz2, hz3, hz4⟩ := this X hX
  refine ⟨Z, ?_, hz2, hz3, fun b hb => ?_⟩
  · rw [← hz1]
    unfold FrontEnd.block
    rw [h.rep]
    beta_reduce
    cases F.linear B.lin p.w p.b X with
    | error e => rfl
    | ok l =>
      simp only [Bind.bind, Except.bind]
      cases B.bil.apply W c p.bw l <;> rfl
  · rw [← hz4 b hb]
    unfold Block.apply
    rw [h.rep]
    beta_reduce
    cases B.lin.apply p.w p.b (X.row b) with
    | error e => rfl
    | ok l =>
      simp only [Bind.bind, Except.bind]
      cases B.bil.applyVec W c p.bw l <;> rfl

omit [StarRing R] in
/-- A block whose representation is not a sum in canonical order raises in every front end. -/
theorem Block.Good.batch_raises {a r : Rep} {B : Block R} (h : B.Good W g N gens a r) (hr : r.Over W g N) (hc : ¬ r.CanonicalSum W) (F : FrontEnd)
    (c : R) (act : R → R) (p : BlockParams R) (X : DMat R) : ∃ e, F.block W c act B p X = .error e := by
  have hg : ∀ v : DMat R, ∃ e, gatedBatch W act r v = .error e := by
    intro v
    rcases hr.isSumOrKey with ⟨k, rfl⟩ | ⟨s, rfl⟩
    · have hkey := hr.key (k.base W) (by simp [Rep.keys])
      cases k with
      | scalar => exact ⟨_, rfl⟩
      | fac f =>
        cases f with
        | atom a => exact ⟨_, rfl⟩
        | prod p =>
          have hperm : p.isPerm W = false := h.sum _ rfl
          by_cases hcan : permCanonical p.perm = true
          · refine ⟨.type, ?_⟩
            have hi : gateIndices W (.key (.fac (.prod p))) = .ok .floats := by
              show (if permCanonical p.perm then _ else _) = _
              rw [if_pos hcan, hperm]; rfl
            unfold gatedBatch
            rw [hi]; rfl
          · refine ⟨.assertion, ?_⟩
            have hi : gateIndices W (.key (.fac (.prod p))) = .error .assertion := if_neg hcan
            unfold gatedBatch
            rw [hi]; rfl
      | dprod d => exact absurd hkey (by simp [Key.base, World.Single])
    · refine ⟨.assertion, ?_⟩
      have hcan : s.canonical = false := by
        by_contra hne
        have : s.canonical = true := by simpa using hne
        unfold SRep.canonical at this
        rw [beq_iff_eq, length_of_perm_range (show s.WF W from hr.wf).perm] at this
        exact hc ⟨s, rfl, this⟩
      have hi : gateIndices W (.sum s) = .error .assertion := if_neg (by simp [hcan])
      unfold gatedBatch
      rw [hi]; rfl
  unfold FrontEnd.block
  rw [h.rep]
  cases F.linear B.lin p.w p.b X with
  | error e => exact ⟨e, rfl⟩
  | ok l =>
    simp only [Bind.bind, Except.bind]
    cases B.bil.apply W c p.bw l with
    | error e => exact ⟨e, rfl⟩
    | ok q => exact hg _

omit [StarRing R] in
theorem blocks_rowwise (F : FrontEnd) (c : R) (act : R → R) : ∀ (mids : List Rep) (a : Rep) (Bs : List (Block R)) (ps : List (BlockParams R)),
    (∀ r ∈ mids, r.Over W g N ∧ r.CanonicalSum W) → Forall₂ (fun p B => Block.Good W g N gens p.1 p.2 B) ((a :: mids).zip mids) Bs →
    Forall₂ BlockParams.Shaped Bs ps →
    Rowwise (a.size W) ((mids.getLastD a).size W) (F.blocks W c act (Bs.zip ps)) (applyBlocks W c act (Bs.zip ps)) := by
  intro mids
  induction mids with
  | nil =>
    intro a Bs ps _ h1 h2
    cases h1
    exact fun X hX => ⟨X, rfl, rfl, hX, fun b _ => rfl⟩
  | cons r t ih =>
    intro a Bs ps hm h1 h2
    rw [zip_cons_cons] at h1
    obtain ⟨B, Bs', hB, hBs, rfl⟩ := forall₂_cons_left_iff.1 h1
    obtain ⟨p, ps', hp, hps, rfl⟩ := forall₂_cons_left_iff.1 h2
    have c1 := hB.rowwise (hm r (by simp)).1 (hm r (by simp)).2 F c act hp
    have c2 := ih r Bs' ps' (fun q hq => hm q (by simp [hq])) hBs hps
    rw [getLastD_cons]
    exact c1.comp c2

omit [StarRing R] in
theorem blocks_batch_raise (F : FrontEnd) (c : R) (act : R → R) : ∀ (mids : List Rep) (a : Rep) (Bs : List (Block R)) (ps : List (BlockParams R))
    (X : DMat R), (∀ r ∈ mids, r.Over W g N) → (∃ r ∈ mids, ¬ r.CanonicalSum W) →
    Forall₂ (fun p B => Block.Good W g N gens p.1 p.2 B) ((a :: mids).zip mids) Bs →
    ps.length = Bs.length → ∃ e, F.blocks W c act (Bs.zip ps) X = .error e := by
  intro mids
  induction mids with
  | nil => intro a Bs ps X _ ⟨r, hr, _⟩; cases hr
  | cons r t ih =>
    intro a Bs ps X hm hex h1 h2
    rw [zip_cons_cons] at h1
    obtain ⟨B, Bs', hB, hBs, rfl⟩ := forall₂_cons_left_iff.1 h1
    cases ps with
    | nil => simp at h2
    | cons p ps' =>
      rw [zip_cons_cons]
      show ∃ e, (F.block W c act B p X >>= fun Y => F.blocks W c act (Bs'.zip ps') Y) = _
      cases hb : F.block W c act B p X with
      | error e => exact ⟨e, rfl⟩
      | ok Y =>
        by_cases hr : r.CanonicalSum W
        · obtain ⟨q, hq, hq'⟩ := hex
          rcases mem_cons.1 hq with rfl | hq
          · exact absurd hr hq'
          · exact ih r Bs' ps' Y (fun q hq => hm q (by simp [hq])) ⟨q, hq, hq'⟩ hBs (by simpa using h2)
        · obtain ⟨e, he⟩ := hB.batch_raises (hm r (by simp)) hr F c act p X
          rw [he] at hb; cases hb

section
variable {a o : Rep} {mids : List Rep} {E : Emlp R} {ps : List (BlockParams R)} {w : DMat R} {β : List R}

omit [StarRing R] in
theorem Emlp.Good.rowwise (h : E.Good W g N gens a mids o) (hm : ∀ r ∈ mids, r.Over W g N ∧ r.CanonicalSum W) (F : FrontEnd) (c : R)
    (act : R → R) (hp : E.Shaped ps w β) : Rowwise (a.size W) (o.size W) (F.apply W c act E ps w β) (E.apply W c act ps w β) :=
  (blocks_rowwise F c act mids a E.blocks ps hm h.blocks hp.blocks).comp (h.last.rowwise F hp.rows hp.cols hp.b)

omit [StarRing R] in
theorem Emlp.Good.batch_raises (h : E.Good W g N gens a mids o) (hm : ∀ r ∈ mids, r.Over W g N) (hc : ∃ r ∈ mids, ¬ r.CanonicalSum W)
    (F : FrontEnd) (c : R) (act : R → R) (hp : ps.length = E.blocks.length) (X : DMat R) : ∃ e, F.apply W c act E ps w β X = .error e := by
  obtain ⟨e, he⟩ := blocks_batch_raise F c act mids a E.blocks ps X hm hc h.blocks hp
  exact ⟨e, by unfold FrontEnd.apply; rw [he]; rfl⟩

end
end Verif
