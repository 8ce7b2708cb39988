import Verif.Lemmas.KrausApi

/-! # Families of matrices as arrays -/

namespace PyQ

/-- A family of matrices as an array. -/
noncomputable def opsArr {l r c : ℕ} (K : Fin l → Matrix (Fin r) (Fin c) ℂ) : Arr3 ℂ :=
  ⟨l, r, c, fun i x y => if h : i < l ∧ x < r ∧ y < c then K ⟨i, h.1⟩ ⟨x, h.2.1⟩ ⟨y, h.2.2⟩ else 0⟩

theorem opsArr_ops {l r c : ℕ} (K : Fin l → Matrix (Fin r) (Fin c) ℂ) : (opsArr K).ops l r c = K := by
  funext i
  ext x y
  show (if h : (i : ℕ) < l ∧ (x : ℕ) < r ∧ (y : ℕ) < c then K ⟨i, h.1⟩ ⟨x, h.2.1⟩ ⟨y, h.2.2⟩ else 0) = _
  rw [dif_pos ⟨i.2, x.2, y.2⟩]

/-- An object is made from every exactly trace preserving family. -/
theorem opsArr_init (sp : Bool) {l a b d e : ℕ} (K : Fin l → Matrix (Fin (e ^ b)) (Fin (d ^ a)) ℂ) (hl : 0 < l)
    (hK : Spec.TracePreserving K) (orth : List ℕ) : ∃ o, QChan.init sp (opsArr K) a b d e orth = .ok o := by
  refine init_exact sp (opsArr K) a b d e orth hl rfl rfl ?_
  have : (opsArr K).ops (opsArr K).len (e ^ b) (d ^ a) = K := opsArr_ops K
  rw [this]
  exact hK

end PyQ
