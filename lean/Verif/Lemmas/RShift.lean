import Verif.Lemmas.ExprSem
import Verif.Lemmas.MulVec

/-! The representation of linear maps. -/
namespace Verif
open List
variable {W : World} {g : Gid} {N : ℕ}

theorem Rep.rshift_spec (hW : W.SingleOK g N) {a b : Rep} (ha : a.WF W) (hb : b.WF W)
    (hka : ∀ k ∈ a.keys W, W.Single g N k) (hkb : ∀ k ∈ b.keys W, W.Single g N k) (hN : b.size W * a.size W ≤ N) :
    ∃ r, Rep.rshift W a b = .ok r ∧ Rep.lshift W b a = .ok r ∧ r.WF W ∧ (∀ k ∈ r.keys W, W.Single g N k) ∧ r.size W = b.size W * a.size W ∧
      ∀ (R : Type) [CommRing R] (I : Interp R), I.Dual W → ∀ M : DMat R, M.rows = b.size W → M.cols = a.size W →
        (∃ X : DMat R, X.IsSq (a.size W) ∧ X.mul (a.mat I) = DMat.one (a.size W) ∧
          (r.mat I).mulVec M.flat = (((b.mat I).mul M).mul X).flat) ∧
        ((r.mat I).mulVec M.flat = M.flat ↔ M.mul (a.mat I) = (b.mat I).mul M) := by
  obtain ⟨t, ht, htw, htk, htz, htm⟩ := Rep.T_spec hW.keyClass (World.Single.dual hW) ha hka
  obtain ⟨r, hr, hwf, hrk, hsz, hm⟩ := Rep.mul_spec hW.keyClass hb htw hkb htk (by rw [htz]; exact hN)
  refine ⟨r, by simp [Rep.rshift, ht, hr, bind, Except.bind], by simp [Rep.lshift, ht, hr, bind, Except.bind], hwf, hrk, by rw [hsz, htz], ?_⟩
  intro R _ I hI M hM hM'
  have sa := Rep.mat_sq hI.toSized ha
  have sb := Rep.mat_sq hI.toSized hb
  have st := Rep.mat_sq hI.toSized htw
  have i1 := htm R I hI
  have sX : (t.mat I).transpose.IsSq (a.size W) := ⟨by rw [DMat.transpose_rows, st.2, htz], by rw [DMat.transpose_cols, st.1, htz]⟩
  have i2 := DMat.mul_eq_one_comm sX sa i1
  have act : (r.mat I).mulVec M.flat = (((b.mat I).mul M).mul (t.mat I).transpose).flat := by
    rw [hm R I hI.toSized]
    exact DMat.kron_mulVec_flat _ _ _ (by rw [sb.2, hM]) (by rw [st.2, htz, hM'])
  refine ⟨⟨_, sX, i1, act⟩, ?_⟩
  rw [act]
  constructor
  · intro hf
    have hf' := DMat.flat_inj (by simp [sb.1, hM]) (by simp [sX.2, hM', st.1, htz]) hf
    calc M.mul (a.mat I) = ((((b.mat I).mul M).mul (t.mat I).transpose)).mul (a.mat I) := by rw [hf']
      _ = ((b.mat I).mul M).mul ((t.mat I).transpose.mul (a.mat I)) := DMat.mul_assoc' _ _ _ (by rw [DMat.mul_cols, hM', sX.1])
      _ = _ := by rw [i1, DMat.mul_one' _ (by rw [DMat.mul_cols, hM'])]
  · intro hf
    rw [← hf, DMat.mul_assoc' _ _ _ (by rw [hM', sa.1]), i2, DMat.mul_one' _ hM']

end Verif
