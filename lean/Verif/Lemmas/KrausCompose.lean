import Verif.Lemmas.KrausApi

/-! Helper lemmas: serial and parallel concatenation. -/

namespace PyQ

open Matrix

theorem retensor_static (o : KrausObj) (n : ℕ) : SameStatic o (o.retensor n) := by
  have fold : ∀ (l : List ℕ) (o : KrausObj),
      SameStatic o (l.foldl (fun o _ => o.setTensor o.kraus o.nth) o) := by
    intro l
    induction l with
    | nil => intro o; exact ⟨rfl, rfl, rfl, rfl, rfl, rfl, rfl⟩
    | cons x l ih =>
      intro o
      exact SameStatic.trans (b := o.setTensor o.kraus o.nth) ⟨rfl, rfl, rfl, rfl, rfl, rfl, rfl⟩ (ih _)
  unfold KrausObj.retensor
  by_cases h1 : o.curN < n
  · rw [if_pos h1]; exact fold _ _
  · rw [if_neg h1]
    by_cases h2 : n < o.curN
    · rw [if_pos h2]
      by_cases h3 : n = 1
      · rw [if_pos h3]; exact ⟨rfl, rfl, rfl, rfl, rfl, rfl, rfl⟩
      · rw [if_neg h3]
        exact SameStatic.trans (b := o.setTensor o.kraus o.kraus) ⟨rfl, rfl, rfl, rfl, rfl, rfl, rfl⟩ (fold _ _)
    · rw [if_neg h2]; exact ⟨rfl, rfl, rfl, rfl, rfl, rfl, rfl⟩

theorem update_static (o : KrausObj) (n : ℕ) : SameStatic o (o.update n).2 := by
  unfold KrausObj.update
  simp only
  rcases ({ o.retensor n with curN := n } : KrausObj).exchange with x | x <;>
    exact retensor_static o n

theorem sync_static (o : KrausObj) (n : ℕ) : SameStatic o (QChan.sync o n).2 := by
  unfold QChan.sync
  by_cases h : n ≠ o.curN
  · rw [if_pos h]; exact update_static o n
  · rw [if_neg h]; exact ⟨rfl, rfl, rfl, rfl, rfl, rfl, rfl⟩

/-- No history changes the operators or the dimensions an object was built with. -/
theorem history_static (o : KrausObj) (calls : List QChan.Call) :
    SameStatic o (QChan.history o calls) := by
  unfold QChan.history
  induction calls generalizing o with
  | nil => exact ⟨rfl, rfl, rfl, rfl, rfl, rfl, rfl⟩
  | cons c l ih =>
    refine SameStatic.trans (b := c.after o) ?_ (ih _)
    rcases call_after o c with h | h
    · rw [h]; exact sync_static o _
    · rw [h]; exact update_static o _

theorem serialConcat_ok {A B C : Arr3 ℂ} (hA : 0 < A.len) (hB : 0 < B.len)
    (h : serialConcat A B = .ok C) : C = A.compose B ∧ A.cols = B.rows := by
  unfold serialConcat at h
  by_cases hc : A.len ≠ 0 ∧ B.len ≠ 0 ∧ B.rows ≠ A.cols
  · rw [if_pos hc] at h; cases h
  · rw [if_neg hc] at h
    injection h with h
    refine ⟨h.symm, ?_⟩
    by_contra hne
    exact hc ⟨by omega, by omega, fun h' => hne h'.symm⟩

theorem compose_ops (A B : Arr3 ℂ) (l₁ l₂ r m c : ℕ) (hm : A.cols = m) (hl : B.len = l₂) :
    (A.compose B).ops (l₁ * l₂) r c =
      fun k : Fin (l₁ * l₂) => A.ops l₁ r m k.divNat * B.ops l₂ m c k.modNat := by
  subst hm hl
  funext k
  ext i j
  simp only [Arr3.ops, Arr3.compose, Matrix.mul_apply, Finset.sum_range]
  rfl

theorem kron_ops (A B : Arr3 ℂ) (l₁ l₂ r₁ r₂ c₁ c₂ : ℕ) (hl : B.len = l₂) (hr : B.rows = r₂)
    (hc : B.cols = c₂) :
    (A.kron B).ops (l₁ * l₂) (r₁ * r₂) (c₁ * c₂) =
      fun k : Fin (l₁ * l₂) => Spec.kron (A.ops l₁ r₁ c₁ k.divNat) (B.ops l₂ r₂ c₂ k.modNat) := by
  subst hl hr hc
  rfl

theorem arr_kron_mat (A B : Arr ℂ) (r₁ r₂ c₁ c₂ : ℕ) (hr : B.rows = r₂) (hc : B.cols = c₂) :
    (A.kron B).mat (r₁ * r₂) (c₁ * c₂) = Spec.kron (A.mat r₁ c₁) (B.mat r₂ c₂) := by
  subst hr hc
  rfl

variable {sp : Bool} {ops : Arr3 ℂ} {a b d e : ℕ} {orth : List ℕ} {o : KrausObj}

/-- One use: the operators are those given to the constructor. -/
theorem api_channel_one (h : QChan.init sp ops a b d e orth = .ok o) (calls : List QChan.Call)
    (hsafe : Spec.SafeUses sp (calls.map QChan.Call.uses ++ [1])) (rho : Arr ℂ)
    (hr : rho.rows = d ^ a) (hc : rho.cols = d ^ a) :
    ∃ out, (QChan.channel (QChan.history o calls) rho 1 false).1 = .ok out ∧
      out.rows = e ^ b ∧ out.cols = e ^ b ∧
      out.mat (e ^ b) (e ^ b) =
        Spec.applyKraus (ops.ops ops.len (e ^ b) (d ^ a)) (rho.mat (d ^ a) (d ^ a)) := by
  obtain ⟨h1, h2, h3, h4, h5, h6, h7, h8, h9, h10, h11, h12⟩ := qchanInit_ok h
  obtain ⟨hn, g1, g2, g3⟩ := reach h1 calls 1 (h3 ▸ hsafe)
  have hk : (QChan.sync (QChan.history o calls) 1).2.kraus = ops := g3.1.trans h2
  have hnth : (QChan.sync (QChan.history o calls) 1).2.nth = ops := by
    rw [g2.nth, hk]; rfl
  obtain ⟨out, e1, e2, e3, e4⟩ := sandwich ops ops.conjT rho ops.len (e ^ b) (d ^ a) (d ^ a) (e ^ b)
    rfl rfl h10 hr hc h10 h11 h11
  refine ⟨out, ?_, e2, e3, ?_⟩
  · unfold QChan.channel
    rcases hs : QChan.sync (QChan.history o calls) 1 with ⟨x, o'⟩
    rw [hs] at g1 g2 hnth
    simp only at g1 g2 hnth
    subst g1
    simp only
    unfold KrausObj.channel
    rw [factors_holds g2, hnth]
    exact e1
  · rw [e4, Spec.applyKraus]
    rfl

end PyQ
