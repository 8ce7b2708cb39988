import Verif.Props.Shapes
import Verif.Props.EntropyBounds
import Mathlib.LinearAlgebra.Matrix.Charpoly.Basic

/-! # C30: the coherent information of an object with groups of orthogonal operators -/

namespace PyQ

open Matrix
open scoped ComplexOrder

variable {ops : Arr3 ℂ} {a b d e : ℕ} {orth : List ℕ} {o o₁ : KrausObj} {sp : Bool} {calls calls₁ : List QChan.Call} {n : ℕ}

/-- C45 for every object: `coherent_information` is the entropy of the output minus the entropy of the list of matrices that
`entropy_exchange` returns, and raises what these raise. -/
theorem C45_coherent_list {eig : Eigvalsh} (h : QChan.init sp ops a b d e orth = .ok o)
    (hsafe : Spec.SafeUses sp (calls.map QChan.Call.uses ++ [n])) (rho : Arr ℂ) (hr : rho.rows = (d ^ a) ^ n)
    (hc : rho.cols = (d ^ a) ^ n) (reg : Bool) {Ws : List (Arr ℂ)}
    (hW : (QChan.entropyExchange (QChan.history o (calls ++ [.channel rho n false])) rho n).1 = .ok Ws) :
    ∃ out, (QChan.channel (QChan.history o calls) rho n false).1 = .ok out ∧ out.rows = (e ^ b) ^ n ∧ out.cols = (e ^ b) ^ n ∧
      out.mat ((e ^ b) ^ n) ((e ^ b) ^ n) = Spec.applyKraus
        (Spec.tensorPow (ops.ops ops.len (e ^ b) (d ^ a)) n) (rho.mat ((d ^ a) ^ n) ((d ^ a) ^ n)) ∧
      (QChan.coherentInformation eig (QChan.history o calls) rho n reg).1 =
        (entropyList eig entropyCut Ws).map fun t =>
          if reg then (entropyOne eig entropyCut out - t) / n else entropyOne eig entropyCut out - t := by
  obtain ⟨out, x1, x2, x3, x4⟩ := api_channel h calls n hsafe rho hr hc
  refine ⟨out, x1, x2, x3, x4, ?_⟩
  have hh : QChan.history o (calls ++ [.channel rho n false]) = (QChan.channel (QChan.history o calls) rho n false).2 := by
    unfold QChan.history
    rw [List.foldl_append]
    rfl
  rw [hh] at hW
  unfold QChan.coherentInformation
  rcases hch : QChan.channel (QChan.history o calls) rho n false with ⟨x, o'⟩
  rw [hch] at x1 hW
  simp only at x1 hW
  subst x1
  simp only
  rcases hex : QChan.entropyExchange o' rho n with ⟨y, o''⟩
  rw [hex] at hW
  simp only at hW
  subst hW
  simp only
  rw [entropyList_one eig entropyCut out (x2.trans x3.symm)]
  rcases entropyList eig entropyCut Ws with e | t <;> rfl

/-- Matrices of different sizes have no entropy. -/
theorem entropyList_mixed (eig : Eigvalsh) (cut : ℝ) {mats : List (Arr ℂ)} {A B : Arr ℂ} (hA : A ∈ mats) (hB : B ∈ mats)
    (h : A.rows ≠ B.rows) : entropyList eig cut mats = .error .value := by
  unfold entropyList
  rw [if_neg fun hm => h ((hm B hB).2 A hA)]

/-- C30, refuted for three groups of equal size: `coherent_information` raises for every channel, state and number of uses. -/
theorem C30_three_groups_coherent_refuted {eig : Eigvalsh} (g : ℕ) (hg : 0 < g) (h : QChan.init false ops a b d e [g, g] = .ok o)
    (hsafe : Spec.SafeUses false (calls.map QChan.Call.uses ++ [n])) (rho : Arr ℂ) (hr : rho.rows = (d ^ a) ^ n)
    (hc : rho.cols = (d ^ a) ^ n) (reg : Bool) :
    (QChan.coherentInformation eig (QChan.history o calls) rho n reg).1 = .error .value := by
  have hsafe' : Spec.SafeUses false ((calls ++ [QChan.Call.channel rho n false]).map QChan.Call.uses ++ [n]) := by
    rw [List.map_append]; exact safe_twice hsafe
  obtain ⟨Ws, V, h1, h2, h3, -⟩ := C30_blocks h (by simp) hsafe' rho hr hc _ rfl
  obtain ⟨U, W, rfl⟩ := List.length_eq_two.mp h2
  obtain ⟨out, -, -, -, -, hv⟩ := C45_coherent_list (eig := eig) h hsafe rho hr hc reg h1
  have h9 : 0 < ops.len := (qchanInit_ok h).2.2.2.2.2.2.2.2.1
  have hU := (h3 0 (by simp) (by simp)).1
  have hW := (h3 1 (by simp) (by simp)).1
  simp only [List.take_succ_cons, List.take_zero, List.sum_cons, List.sum_nil, Nat.add_zero, List.getElem_cons_succ,
    List.getElem_cons_zero, Nat.zero_mul, Nat.sub_zero] at hU hW
  have hpos : 0 < g * ops.len ^ (n - 1) := Nat.mul_pos hg (Nat.pow_pos h9)
  have hpos' : 0 < ops.len ^ n := Nat.pow_pos h9
  rw [hv, entropyList_mixed eig entropyCut (A := U) (B := W) (by simp) (by simp) (by rw [hU, hW]; omega)]
  rfl

/-- C30.  If the operators split into two mutually orthogonal groups of equal size `g`, the object made with `orthogonal_kraus=[g]`
and the one made without it return the same coherent information, for every positive semidefinite `rho` and number of uses, whatever
calls were made before. -/
theorem C30_coherent_partial {eig : Eigvalsh} (heig : eig.Correct) (g : ℕ) (h : QChan.init false ops a b d e [g] = .ok o)
    (h₁ : QChan.init false ops a b d e [] = .ok o₁) (hg : ops.len = 2 * g)
    (horth : ∀ k m : Fin ops.len, (k : ℕ) < g → g ≤ (m : ℕ) →
      (ops.ops ops.len (e ^ b) (d ^ a) k)ᴴ * ops.ops ops.len (e ^ b) (d ^ a) m = 0)
    (hsafe : Spec.SafeUses false (calls.map QChan.Call.uses ++ [n])) (hsafe₁ : Spec.SafeUses false (calls₁.map QChan.Call.uses ++ [n]))
    (rho : Arr ℂ) (hr : rho.rows = (d ^ a) ^ n) (hc : rho.cols = (d ^ a) ^ n)
    (hrho : (rho.mat ((d ^ a) ^ n) ((d ^ a) ^ n)).PosSemidef) (reg : Bool) :
    ∃ v, (QChan.coherentInformation eig (QChan.history o calls) rho n reg).1 = .ok v ∧
      (QChan.coherentInformation eig (QChan.history o₁ calls₁) rho n reg).1 = .ok v := by
  have hsafe' : Spec.SafeUses false ((calls ++ [QChan.Call.channel rho n false]).map QChan.Call.uses ++ [n]) := by
    rw [List.map_append]; exact safe_twice hsafe
  obtain ⟨full, c, W, V, f1, f2, f3, f4, f5, f6, f7, f8⟩ := C30_orthogonal_partial g h hg horth _ n hsafe' rho hr hc
  obtain ⟨out, -, x2, x3, x4, hv⟩ := C45_coherent_list (eig := eig) h hsafe rho hr hc reg f2
  obtain ⟨out₁, F, -, y2, y3, y4, w2, w3, w4, hv₁⟩ := C45_coherent_value (eig := eig) h₁ (Or.inr rfl) calls₁ n hsafe₁ rho hr hc reg
  have hout : entropyOne eig entropyCut out = entropyOne eig entropyCut out₁ := by
    refine entropy_same heig entropyCut_nonneg x2 x3 y2 y3 ?_ (x4.trans y4.symm)
    rw [x4]
    exact (Spec.applyKraus_posSemidef _ hrho).isHermitian
  have hfull : full.IsHermitian := by rw [f1]; exact (Spec.exchange_posSemidef _ hrho).isHermitian
  have hF : F.mat (ops.len ^ n) (ops.len ^ n) = full := w4.trans f1.symm
  -- the full matrix is block diagonal
  let σ : Fin c ⊕ Fin c ≃ Fin (ops.len ^ n) := finSumFinEquiv.trans (finCongr f3.symm)
  have hl : ∀ i : Fin c, ((σ (Sum.inl i) : Fin (ops.len ^ n)) : ℕ) = i := fun i => rfl
  have hr' : ∀ i : Fin c, ((σ (Sum.inr i) : Fin (ops.len ^ n)) : ℕ) = c + i := fun i => rfl
  have hblock : full.submatrix σ σ = fromBlocks (W.mat c c) 0 0 (V.mat c c) := by
    ext i j
    rw [submatrix_apply, f8]
    rcases i with i | i <;> rcases j with j | j
    · rw [hl, hl, if_pos ⟨i.2, j.2⟩]; rfl
    · rw [hl, hr', if_neg (by omega), if_neg (by omega)]; rfl
    · rw [hl, hr', if_neg (by omega), if_neg (by omega)]; rfl
    · rw [hr', hr', if_neg (by omega), if_pos (by omega), Nat.add_sub_cancel_left, Nat.add_sub_cancel_left]; rfl
  have hherm := hfull.submatrix σ
  rw [hblock, isHermitian_fromBlocks_iff] at hherm
  have hsum := sum_eq_of_charpoly (p := 0) (q := 0) (A := full) (A' := full.submatrix σ σ)
    (w := fun i : Fin (ops.len ^ n) => eig F i) (w' := Sum.elim (fun i : Fin c => eig W i) fun i : Fin c => eig V i)
    (by rw [← hF]; exact heig F _ w2 w3 (hF ▸ hfull))
    (by
      rw [hblock, charpoly_fromBlocks_zero₁₂, Fintype.prod_sum_type, heig W c f4 f5 hherm.1, heig V c f6 f7 hherm.2.2.2]
      rfl)
    (by
      have : (full.submatrix σ σ).charpoly = full.charpoly := charpoly_reindex σ.symm full
      rw [this])
    (entropyTerm entropyCut) (entropyTerm_zero entropyCut_nonneg)
  rw [Fintype.sum_sum_type] at hsum
  have hent : entropyList eig entropyCut [W, V] = .ok (entropyOne eig entropyCut F) := by
    unfold entropyList
    rw [if_pos (by
      intro M hM
      have key : ∀ M ∈ [W, V], M.rows = c ∧ M.cols = c := by
        intro M hM
        simp only [List.mem_cons, List.not_mem_nil, or_false] at hM
        rcases hM with rfl | rfl
        · exact ⟨f4, f5⟩
        · exact ⟨f6, f7⟩
      exact ⟨(key M hM).1.trans (key M hM).2.symm, fun N hN => (key N hN).1.trans (key M hM).1.symm⟩)]
    rw [entropyOne_eq eig entropyCut F _ w2, hsum]
    simp only [List.map_cons, List.map_nil, List.sum_cons, List.sum_nil, add_zero, Sum.elim_inl, Sum.elim_inr]
    rw [entropyOne_eq eig entropyCut W _ f4, entropyOne_eq eig entropyCut V _ f6, neg_add]
  rw [hent] at hv
  exact ⟨_, hv, by rw [hv₁, hout]⟩

/-- The dephasing operators are two orthogonal groups of size one. -/
example : ∃ eig o o₁, eig.Correct ∧ QChan.init false dephOps 1 1 2 2 [1] = .ok o ∧ QChan.init false dephOps 1 1 2 2 [] = .ok o₁ ∧
    ∃ v, (QChan.coherentInformation eig o (Arr.eye 4) 2 false).1 = .ok v ∧
      (QChan.coherentInformation eig o₁ (Arr.eye 4) 2 false).1 = .ok v := by
  obtain ⟨eig, heig⟩ := exists_eigvalsh
  obtain ⟨o, ho⟩ := deph_ok false [1]
  obtain ⟨o₁, ho₁⟩ := deph_ok false []
  obtain ⟨v, h1, h2⟩ := C30_coherent_partial (calls := []) (calls₁ := []) (n := 2) heig 1 ho ho₁ rfl (by
    intro k m hk hm
    ext i j
    simp only [dephOps, Matrix.mul_apply, conjTranspose_apply, Arr3.ops, Matrix.zero_apply]
    apply Finset.sum_eq_zero
    intro x _
    by_cases h : (k : ℕ) = x
    · rw [if_neg (c := (m : ℕ) = x ∧ _), mul_zero]
      omega
    · rw [if_neg (by tauto), star_zero, zero_mul]) ⟨by simp, by simp⟩ ⟨by simp, by simp⟩ (Arr.eye 4) rfl rfl (by
      have : (Arr.eye 4 : Arr ℂ).mat ((2 ^ 1) ^ 2) ((2 ^ 1) ^ 2) = 1 := by
        ext i j
        simp only [Arr.mat, Arr.eye, Matrix.one_apply, Fin.ext_iff]
      rw [this]
      exact PosSemidef.one) false
  exact ⟨eig, o, o₁, heig, ho, ho₁, v, h1, h2⟩

/-- Three groups of one operator each are accepted by the constructor. -/
example : ∃ o, QChan.init false dephOps 1 1 2 2 [1, 1] = .ok o := deph_ok false [1, 1]

end PyQ
