import Verif.Lemmas.Codeword
import Verif.Props.Logical

/-! Signs on the group generated by commuting rows. -/

namespace PyQ

open Spec

variable {n : ℕ} {rows : List (List ℤ)}

theorem ofVec_vec (p : Pauli n) : ofVec p.vec = p := rfl

theorem group_bilin {f : BVec n → BVec n → ZMod 2} (hl0 : ∀ v, f 0 v = 0) (hr0 : ∀ v, f v 0 = 0)
    (hl : ∀ u v w, f (u + v) w = f u w + f v w) (hr : ∀ u v w, f u (v + w) = f u v + f u w)
    (h : ∀ p ∈ rows, ∀ q ∈ rows, f (rowPauli n p).vec (rowPauli n q).vec = 0) :
    ∀ u ∈ groupOf n rows, ∀ v ∈ groupOf n rows, f u v = 0 := by
  have hs : ∀ (c : ZMod 2) (x : BVec n), c • x = 0 ∨ c • x = x := by
    intro c x
    rcases zmod2_cases c with rfl | rfl
    · left; simp
    · right; simp
  have h1 : ∀ p ∈ rows, ∀ v ∈ groupOf n rows, f (rowPauli n p).vec v = 0 := by
    intro p hp v hv
    unfold groupOf at hv
    induction hv using Submodule.span_induction with
    | zero => exact hr0 _
    | add x y _ _ hx hy => rw [hr, hx, hy, add_zero]
    | smul c x _ hx => rcases hs c x with e | e <;> rw [e]; exacts [hr0 _, hx]
    | mem x hx => obtain ⟨q, hq, rfl⟩ := hx; exact h p hp q hq
  intro u hu v hv
  unfold groupOf at hu
  induction hu using Submodule.span_induction with
  | zero => exact hl0 _
  | add x y _ _ hx hy => rw [hl, hx, hy, add_zero]
  | smul c x _ hx => rcases hs c x with e | e <;> rw [e]; exacts [hl0 _, hx]
  | mem x hx => obtain ⟨p, hp, rfl⟩ := hx; exact h1 p hp v hv

theorem group_isotropic (h : ∀ p ∈ rows, ∀ q ∈ rows, symp (rowPauli n p) (rowPauli n q) = 0) :
    ∀ u ∈ groupOf n rows, ∀ v ∈ groupOf n rows, sympV u v = 0 := by
  refine group_bilin (f := sympV) ?_ ?_ ?_ ?_ (fun p hp q hq => h p hp q hq)
  · intro v; simp [sympV]
  · intro v; simp [sympV]
  · intro u v w; simp only [sympV, Prod.fst_add, Prod.snd_add, dotp_add_left]; ring
  · intro u v w; simp only [sympV, Prod.fst_add, Prod.snd_add, dotp_add_right]; ring

theorem group_zx (h : ∀ p ∈ rows, ∀ q ∈ rows, dotp (rowPauli n p).z (rowPauli n q).x = 0) :
    ∀ u ∈ groupOf n rows, ∀ v ∈ groupOf n rows, dotp u.2 v.1 = 0 := by
  refine group_bilin (f := fun u v => dotp u.2 v.1) ?_ ?_ ?_ ?_ (fun p hp q hq => h p hp q hq)
  · intro v; simp
  · intro v; simp
  · intro u v w; simp only [Prod.snd_add, dotp_add_left]
  · intro u v w; simp only [Prod.fst_add, dotp_add_right]

/-- The parity of the number of Y's is additive on commuting operators. -/
theorem group_evenY (h : ∀ p ∈ rows, ∀ q ∈ rows, symp (rowPauli n p) (rowPauli n q) = 0)
    (hY : ∀ p ∈ rows, dotp (rowPauli n p).z (rowPauli n p).x = 0) :
    ∀ u ∈ groupOf n rows, dotp u.2 u.1 = 0 := by
  have hiso := group_isotropic h
  intro u hu
  have hmem : ∀ w, w ∈ Submodule.span (ZMod 2) {v | ∃ r ∈ rows, v = (rowPauli n r).vec} → w ∈ groupOf n rows := fun w hw => hw
  unfold groupOf at hu
  induction hu using Submodule.span_induction with
  | zero => simp
  | add x y hxm hym hx hy =>
    have := hiso x (hmem x hxm) y (hmem y hym)
    unfold sympV at this
    simp only [Prod.fst_add, Prod.snd_add, dotp_add_left, dotp_add_right]
    rw [hx, hy, dotp_comm y.2 x.1]
    linear_combination this
  | smul c x _ hx => rcases zmod2_cases c with rfl | rfl <;> simp [hx]
  | mem x hx => obtain ⟨p, hp, rfl⟩ := hx; exact hY p hp

/-- A state fixed by the generators is an eigenvector, with eigenvalue a sign, of everything they generate. -/
theorem group_eigen {ψ : Amp n} (h : ∀ g ∈ rows, pauliAct (rowPauli n g) ψ = ψ) :
    ∀ v ∈ groupOf n rows, ∃ s : ZMod 2, pauliAct (ofVec v) ψ = (sgn s : ℂ) • ψ := by
  intro v hv
  unfold groupOf at hv
  induction hv using Submodule.span_induction with
  | zero => exact ⟨0, by rw [sgn_zero, one_smul]; exact pauliAct_one ψ⟩
  | add x y _ _ hx hy =>
    obtain ⟨s, hs⟩ := hx
    obtain ⟨t, ht⟩ := hy
    have hc := pauliAct_comp (ofVec x) (ofVec y) ψ
    rw [ht, pauliAct_smul, hs, smul_smul] at hc
    refine ⟨dotp (ofVec x).z (ofVec y).x + (t + s), ?_⟩
    have hc2 := congrArg (fun φ => (sgn (dotp (ofVec x).z (ofVec y).x) : ℂ) • φ) hc
    simp only [smul_smul] at hc2
    rw [sgn_mul_self, one_smul] at hc2
    rw [sgn_add, sgn_add, hc2]
    rfl
  | smul c x _ hx =>
    rcases zmod2_cases c with rfl | rfl
    · exact ⟨0, by rw [sgn_zero, one_smul, zero_smul]; exact pauliAct_one ψ⟩
    · rw [one_smul]; exact hx
  | mem x hx =>
    obtain ⟨p, hp, rfl⟩ := hx
    exact ⟨0, by rw [sgn_zero, one_smul]; exact h p hp⟩

/-- If Z parts never meet X parts, there are no signs. -/
theorem group_fixed {ψ : Amp n} (hzx : ∀ p ∈ rows, ∀ q ∈ rows, dotp (rowPauli n p).z (rowPauli n q).x = 0)
    (h : ∀ g ∈ rows, pauliAct (rowPauli n g) ψ = ψ) : ∀ v ∈ groupOf n rows, pauliAct (ofVec v) ψ = ψ := by
  have hz := group_zx hzx
  intro v hv
  have hmem : ∀ w, w ∈ Submodule.span (ZMod 2) {v | ∃ r ∈ rows, v = (rowPauli n r).vec} → w ∈ groupOf n rows := fun w hw => hw
  unfold groupOf at hv
  induction hv using Submodule.span_induction with
  | zero => exact pauliAct_one ψ
  | add x y hxm hym hx hy =>
    have hc := pauliAct_comp (ofVec x) (ofVec y) ψ
    rw [hy, hx, show dotp (ofVec x).z (ofVec y).x = 0 from hz x (hmem x hxm) y (hmem y hym), sgn_zero, one_smul] at hc
    exact hc.symm
  | smul c x _ hx =>
    rcases zmod2_cases c with rfl | rfl
    · rw [zero_smul]; exact pauliAct_one ψ
    · rw [one_smul]; exact hx
  | mem x hx => obtain ⟨p, hp, rfl⟩ := hx; exact h p hp

theorem dotp_relabel (σ : Equiv.Perm (Fin n)) (u v : BVec n) : dotp (relabel σ u).2 (relabel σ v).1 = dotp u.2 v.1 := by
  unfold dotp
  exact Equiv.sum_comp σ fun j => u.2 j * v.1 j

end PyQ
