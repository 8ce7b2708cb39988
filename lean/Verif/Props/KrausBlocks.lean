import Verif.Props.KrausCompose
import Mathlib.LinearAlgebra.Matrix.IsDiag

/-!
# C30, C31 and the differences between sparse and dense objects (C28)
-/

namespace PyQ

open Matrix

/-- The entry of one block of the exchange matrix. -/
theorem exchangeBlock_holds {o : KrausObj} {n : ℕ} (hn : 1 ≤ n) (h : Holds o n) (rho : Arr ℂ)
    (hr : rho.rows = o.kraus.cols ^ n) (hc : rho.cols = o.kraus.cols ^ n) (a b : ℕ) :
    ∃ W, KrausObj.exchangeBlock o.exch rho a b = .ok W ∧ W.rows = min b (o.kraus.len ^ n) - a ∧
      W.cols = min b (o.kraus.len ^ n) - a ∧
      ∀ i j : ℕ, ∀ hi : a + i < o.kraus.len ^ n, ∀ hj : a + j < o.kraus.len ^ n, W.get i j =
        Spec.entropyExchange (Spec.tensorPow (o.kraus.ops o.kraus.len o.kraus.rows o.kraus.cols) n)
          (rho.mat (o.kraus.cols ^ n) (o.kraus.cols ^ n)) ⟨a + i, hi⟩ ⟨a + j, hj⟩ := by
  obtain ⟨d1, d2, d3⟩ := nth_dims hn h
  have he := exch_eq h
  have hex3 : o.exch.d3 = rho.rows := by rw [he]; exact d3.trans hr.symm
  have hex2 : o.exch.d2 = rho.cols := by rw [he]; exact d3.trans hc.symm
  rw [exchangeBlock_eq hex3 hex2]
  refine ⟨_, rfl, ?_, ?_, ?_⟩
  · simp only [he]; rw [d1]
  · simp only [he]; rw [d1]
  · intro i j hi hj
    rw [← nth_ops hn h, ← exch_sum o.nth rho, he]
    simp only
    rw [d3, d2]

variable {sp : Bool} {ops : Arr3 ℂ} {a b d e : ℕ} {orth : List ℕ} {o : KrausObj}

/-- What `entropy_exchange` returns with `orthogonal_kraus=[g]`: the block of the first `g * L^(n-1)`
operators and the block of the *last* `g * L^(n-1)` operators. -/
theorem exchange_orth (g : ℕ) (h : QChan.init false ops a b d e [g] = .ok o) (hg : g ≤ ops.len)
    (calls : List QChan.Call) (n : ℕ)
    (hsafe : Spec.SafeUses false (calls.map QChan.Call.uses ++ [n])) (rho : Arr ℂ)
    (hr : rho.rows = (d ^ a) ^ n) (hc : rho.cols = (d ^ a) ^ n) :
    ∃ W V, (QChan.entropyExchange (QChan.history o calls) rho n).1 = .ok [W, V] ∧
      W.rows = g * ops.len ^ (n - 1) ∧ W.cols = g * ops.len ^ (n - 1) ∧
      V.rows = g * ops.len ^ (n - 1) ∧ V.cols = g * ops.len ^ (n - 1) ∧
      g * ops.len ^ (n - 1) ≤ ops.len ^ n ∧
      (∀ i j : ℕ, ∀ hi : i < ops.len ^ n, ∀ hj : j < ops.len ^ n, W.get i j =
        Spec.entropyExchange (Spec.tensorPow (ops.ops ops.len (e ^ b) (d ^ a)) n)
          (rho.mat ((d ^ a) ^ n) ((d ^ a) ^ n)) ⟨i, hi⟩ ⟨j, hj⟩) ∧
      (∀ i j : ℕ, ∀ hi : ops.len ^ n - g * ops.len ^ (n - 1) + i < ops.len ^ n,
        ∀ hj : ops.len ^ n - g * ops.len ^ (n - 1) + j < ops.len ^ n, V.get i j =
        Spec.entropyExchange (Spec.tensorPow (ops.ops ops.len (e ^ b) (d ^ a)) n)
          (rho.mat ((d ^ a) ^ n) ((d ^ a) ^ n)) ⟨_, hi⟩ ⟨_, hj⟩) := by
  obtain ⟨h1, h2, h3, h4, h5, h6, h7, h8, h9, h10, h11, h12⟩ := qchanInit_ok h
  obtain ⟨hn, g1, g2, g3⟩ := reach h1 calls n (h3 ▸ hsafe)
  have hk : (QChan.sync (QChan.history o calls) n).2.kraus = ops := g3.1.trans h2
  have hs' : (QChan.sync (QChan.history o calls) n).2.sparse = false := g3.2.1.trans h3
  have ho' : (QChan.sync (QChan.history o calls) n).2.orth = [g] := by rw [g3.2.2.2.2.2.2, h8]; rfl
  have hle : g * ops.len ^ (n - 1) ≤ ops.len ^ n := by
    calc g * ops.len ^ (n - 1) ≤ ops.len * ops.len ^ (n - 1) := Nat.mul_le_mul_right _ hg
      _ = ops.len ^ n := by rw [← pow_succ', Nat.sub_add_cancel hn]
  rcases hs : QChan.sync (QChan.history o calls) n with ⟨x, o'⟩
  rw [hs] at g1 g2 hk hs' ho'
  simp only at g1 g2 hk hs' ho'
  subst g1
  have hdims := nth_dims hn g2
  have hee := exch_eq g2
  have hd0 : o'.exch.d0 = ops.len ^ n := by rw [hee]; exact hdims.1.trans (by rw [hk])
  have hd1 : o'.exch.d1 = ops.len ^ n := by rw [hee]; exact hdims.1.trans (by rw [hk])
  obtain ⟨W, w1, w2, w3, w4⟩ := exchangeBlock_holds hn g2 rho (by rw [hk, h10, hr]) (by rw [hk, h10, hc])
    0 (g * ops.len ^ (n - 1))
  obtain ⟨V, v1, v2, v3, v4⟩ := exchangeBlock_holds hn g2 rho (by rw [hk, h10, hr]) (by rw [hk, h10, hc])
    (ops.len ^ n - g * ops.len ^ (n - 1)) (ops.len ^ n)
  rw [hk, h10, h11] at w4 v4
  rw [hk] at w2 w3 v2 v3
  refine ⟨W, V, ?_, ?_, ?_, ?_, ?_, hle, ?_, v4⟩
  · unfold QChan.entropyExchange
    rw [hs]
    simp only
    unfold KrausObj.entropyExchange
    rw [hs', ho', if_neg (by simp), if_neg (by simp), if_neg (by omega)]
    have hloop : o'.orthLoop rho n [g] 0 = .ok ([W], g * ops.len ^ (n - 1)) := by
      unfold KrausObj.orthLoop KrausObj.orthLoop KrausObj.numbKraus
      simp only [hk, w1, bind, Except.bind, pure, Except.pure, zero_add]
    rw [hloop]
    simp only [bind, Except.bind, KrausObj.numbKraus, hk]
    rw [if_pos hle, hd0, hd1, max_self, v1]
    rfl
  · rw [w2]; omega
  · rw [w3]; omega
  · rw [v2]; omega
  · rw [v3]; omega
  · intro i j hi hj
    have := w4 i j (by rw [zero_add]; exact hi) (by rw [zero_add]; exact hj)
    simp only [zero_add] at this
    exact this

theorem tensorPow_one_apply (A : Arr3 ℂ) (l r c : ℕ) (k : Fin (l ^ 1)) (i : Fin (r ^ 1)) (j : Fin (c ^ 1)) :
    Spec.tensorPow (A.ops l r c) 1 k i j = A.get k i j := by
  have hk : (k : ℕ) < l := lt_of_lt_of_eq k.2 (pow_one l)
  have hi : (i : ℕ) < r := lt_of_lt_of_eq i.2 (pow_one r)
  have hj : (j : ℕ) < c := lt_of_lt_of_eq j.2 (pow_one c)
  simp [Spec.tensorPow, Spec.tensorProd, Spec.digit, Arr3.ops, Nat.mod_eq_of_lt, hk, hi, hj]

/-- `tr (K_x ρ K_y†) = 0` when some factors of the tensor products are orthogonal. -/
theorem tensorPow_orthogonal {l r c n : ℕ} (K : Fin l → Matrix (Fin r) (Fin c) ℂ)
    (ρ : Matrix (Fin (c ^ n)) (Fin (c ^ n)) ℂ) (x y : Fin (l ^ n)) (t : Fin n)
    (h : (K (Spec.digit y t))ᴴ * K (Spec.digit x t) = 0) :
    Spec.entropyExchange (Spec.tensorPow K n) ρ x y = 0 := by
  have hz : (Spec.tensorPow K n y)ᴴ * Spec.tensorPow K n x = 0 := by
    unfold Spec.tensorPow
    rw [Spec.tensorProd_conjTranspose, Spec.tensorProd_mul]
    ext i j
    unfold Spec.tensorProd
    exact Finset.prod_eq_zero (Finset.mem_univ t) (congrFun (congrFun h _) _)
  unfold Spec.entropyExchange
  rw [Matrix.trace_mul_comm, ← Matrix.mul_assoc, hz, Matrix.zero_mul, trace_zero]

/-- C30.  If the operators split into two mutually orthogonal groups *of equal size* `g`, then for every
number of uses the two matrices returned with `orthogonal_kraus=[g]` are the diagonal blocks of the full
exchange matrix `W`, and the rest of `W` is zero.  Missing: groups of different sizes
(`C30_orthogonal_refuted`) and more than two groups. -/
theorem C30_orthogonal_partial (g : ℕ) (h : QChan.init false ops a b d e [g] = .ok o)
    (hg : ops.len = 2 * g)
    (horth : ∀ k m : Fin ops.len, (k : ℕ) < g → g ≤ (m : ℕ) →
      (ops.ops ops.len (e ^ b) (d ^ a) k)ᴴ * ops.ops ops.len (e ^ b) (d ^ a) m = 0)
    (calls : List QChan.Call) (n : ℕ)
    (hsafe : Spec.SafeUses false (calls.map QChan.Call.uses ++ [n])) (rho : Arr ℂ)
    (hr : rho.rows = (d ^ a) ^ n) (hc : rho.cols = (d ^ a) ^ n) :
    ∃ (full : Matrix (Fin (ops.len ^ n)) (Fin (ops.len ^ n)) ℂ) (c : ℕ) (W V : Arr ℂ),
      full = Spec.entropyExchange (Spec.tensorPow (ops.ops ops.len (e ^ b) (d ^ a)) n)
        (rho.mat ((d ^ a) ^ n) ((d ^ a) ^ n)) ∧
      (QChan.entropyExchange (QChan.history o calls) rho n).1 = .ok [W, V] ∧
      ops.len ^ n = c + c ∧ W.rows = c ∧ W.cols = c ∧ V.rows = c ∧ V.cols = c ∧
      ∀ i j : Fin (ops.len ^ n), full i j =
        if (i : ℕ) < c ∧ (j : ℕ) < c then W.get i j
        else if c ≤ (i : ℕ) ∧ c ≤ (j : ℕ) then V.get (i - c) (j - c) else 0 := by
  obtain ⟨W, V, h1, h2, h3, h4, h5, h6, h7, h8⟩ := exchange_orth g h (by omega) calls n hsafe rho hr hc
  have hn : 1 ≤ n := hsafe.1 n (by simp)
  have hpow : ops.len ^ n = g * ops.len ^ (n - 1) + g * ops.len ^ (n - 1) := by
    calc ops.len ^ n = ops.len ^ (n - 1) * ops.len := by rw [← pow_succ, Nat.sub_add_cancel hn]
      _ = ops.len ^ (n - 1) * (2 * g) := by rw [← hg]
      _ = _ := by ring
  refine ⟨_, g * ops.len ^ (n - 1), W, V, rfl, h1, hpow, h2, h3, h4, h5, ?_⟩
  have hlpos : 0 < ops.len := (qchanInit_ok h).2.2.2.2.2.2.2.2.1
  have hdig : ∀ x : Fin (ops.len ^ n), (x : ℕ) < g * ops.len ^ (n - 1) ↔
      ((Spec.digit x ⟨0, hn⟩ : Fin ops.len) : ℕ) < g := by
    intro x
    unfold Spec.digit
    simp only [Nat.sub_zero]
    rw [Nat.mod_eq_of_lt, Nat.div_lt_iff_lt_mul (Nat.pow_pos hlpos)]
    rw [Nat.div_lt_iff_lt_mul (Nat.pow_pos hlpos), ← pow_succ', Nat.sub_add_cancel hn]
    exact x.2
  have hsub : ops.len ^ n - g * ops.len ^ (n - 1) = g * ops.len ^ (n - 1) := by omega
  intro i j
  by_cases hi : (i : ℕ) < g * ops.len ^ (n - 1)
  · by_cases hj : (j : ℕ) < g * ops.len ^ (n - 1)
    · rw [if_pos ⟨hi, hj⟩, h7 i j i.2 j.2]
    · rw [if_neg (fun hh => hj hh.2), if_neg (fun hh => absurd hi (not_lt.mpr hh.1))]
      refine tensorPow_orthogonal _ _ i j ⟨0, hn⟩ ?_
      have := horth (Spec.digit i ⟨0, hn⟩) (Spec.digit j ⟨0, hn⟩) ((hdig i).mp hi)
        (not_lt.mp fun hh => hj ((hdig j).mpr hh))
      have h2 := congrArg conjTranspose this
      rw [conjTranspose_mul, conjTranspose_conjTranspose, conjTranspose_zero] at h2
      exact h2
  · by_cases hj : (j : ℕ) < g * ops.len ^ (n - 1)
    · rw [if_neg (fun hh => hi hh.1), if_neg (fun hh => absurd hj (not_lt.mpr hh.2))]
      refine tensorPow_orthogonal _ _ i j ⟨0, hn⟩ ?_
      exact horth (Spec.digit j ⟨0, hn⟩) (Spec.digit i ⟨0, hn⟩) ((hdig j).mp hj)
        (not_lt.mp fun hh => hi ((hdig i).mpr hh))
    · rw [if_neg (fun hh => hi hh.1), if_pos ⟨not_lt.mp hi, not_lt.mp hj⟩]
      have e1 : ops.len ^ n - g * ops.len ^ (n - 1) + (i - g * ops.len ^ (n - 1)) = i := by omega
      have e2 : ops.len ^ n - g * ops.len ^ (n - 1) + (j - g * ops.len ^ (n - 1)) = j := by omega
      rw [h8 _ _ (by omega) (by omega)]
      congr 1 <;> exact Fin.ext (by simp only [e1, e2])

/-- The dephasing operators `|0><0|`, `|1><1|` are two orthogonal groups of size one. -/
example : ∃ o, QChan.init false dephOps 1 1 2 2 [1] = .ok o ∧
    ∃ W V, (QChan.entropyExchange o (Arr.eye 4) 2).1 = .ok [W, V] ∧ W.rows = 2 := by
  obtain ⟨o, ho⟩ := deph_ok false [1]
  obtain ⟨full, c, W, V, -, h1, h2, h3, -⟩ := C30_orthogonal_partial 1 ho rfl (by
    intro k m hk hm
    ext i j
    simp only [dephOps, Matrix.mul_apply, conjTranspose_apply, Arr3.ops, Matrix.zero_apply]
    apply Finset.sum_eq_zero
    intro x _
    by_cases h : (k : ℕ) = x
    · rw [if_neg (c := (m : ℕ) = x ∧ _), mul_zero]
      omega
    · rw [if_neg (by tauto), star_zero, zero_mul]) [] 2 ⟨by simp, by simp⟩ (Arr.eye 4) rfl rfl
  refine ⟨o, ho, W, V, h1, ?_⟩
  have h2' : (4 : ℕ) = c + c := h2
  omega

/-- With unequal groups the two blocks do not fill the exchange matrix: together they have
`2 g L^(n-1)` rows, and the full matrix has `L^n`. -/
theorem C30_rows_refuted (g : ℕ) (h : QChan.init false ops a b d e [g] = .ok o) (hg : g ≤ ops.len)
    (hne : ops.len ≠ 2 * g) (calls : List QChan.Call) (n : ℕ)
    (hsafe : Spec.SafeUses false (calls.map QChan.Call.uses ++ [n])) (rho : Arr ℂ)
    (hr : rho.rows = (d ^ a) ^ n) (hc : rho.cols = (d ^ a) ^ n) :
    ∃ W V, (QChan.entropyExchange (QChan.history o calls) rho n).1 = .ok [W, V] ∧
      W.rows + V.rows ≠ ops.len ^ n := by
  obtain ⟨W, V, h1, h2, h3, h4, h5, h6, h7, h8⟩ := exchange_orth g h hg calls n hsafe rho hr hc
  refine ⟨W, V, h1, ?_⟩
  have hn : 1 ≤ n := hsafe.1 n (by simp)
  have hlpos : 0 < ops.len := (qchanInit_ok h).2.2.2.2.2.2.2.2.1
  rw [h2, h4]
  intro hh
  apply hne
  have : ops.len * ops.len ^ (n - 1) = 2 * g * ops.len ^ (n - 1) := by
    rw [← pow_succ', Nat.sub_add_cancel hn, ← hh]; ring
  exact Nat.eq_of_mul_eq_mul_right (Nat.pow_pos hlpos) this

/-- The erasure channel of the documentation of `entropy_exchange`, with probability `16/25` of an
erasure: `3/5 (|0><0| + |1><1|)`, `4/5 |2><0|`, `4/5 |2><1|`. -/
noncomputable def erasureOps : Arr3 ℂ := ⟨3, 3, 2, fun k i j =>
  if k = 0 then (if i = j then 3 / 5 else 0) else if i = 2 ∧ j + 1 = k then 4 / 5 else 0⟩

theorem erasureOps_tp : Spec.TracePreserving (erasureOps.ops erasureOps.len (3 ^ 1) (2 ^ 1)) := by
  unfold Spec.TracePreserving
  change ∑ i : Fin 3, (erasureOps.ops 3 3 2 i)ᴴ * erasureOps.ops 3 3 2 i = (1 : Matrix (Fin 2) (Fin 2) ℂ)
  ext i j
  simp only [erasureOps, Matrix.sum_apply, Matrix.mul_apply, conjTranspose_apply, Arr3.ops, Matrix.one_apply]
  fin_cases i <;> fin_cases j <;> simp [Fin.sum_univ_succ, map_ofNat] <;> norm_num

/-- The state `|0><0|` of a qubit. -/
def zeroState : Arr ℂ := ⟨2, 2, fun i j => if i = 0 ∧ j = 0 then 1 else 0⟩

/-- C30 is false for the example in the documentation: the sets `{k0}` and `{k1, k2}` are orthogonal, and on
`|0><0|` the returned blocks have total trace `9/25`, while the full exchange matrix has trace one. -/
theorem C30_orthogonal_refuted :
    (∀ k m : Fin 3, (k : ℕ) < 1 → 1 ≤ (m : ℕ) →
      (erasureOps.ops 3 3 2 k)ᴴ * erasureOps.ops 3 3 2 m = 0) ∧
    ∃ o p, QChan.init false erasureOps 1 1 2 3 [1] = .ok o ∧ QChan.init false erasureOps 1 1 2 3 [] = .ok p ∧
      ∃ W V F, (QChan.entropyExchange o zeroState 1).1 = .ok [W, V] ∧
        (QChan.entropyExchange p zeroState 1).1 = .ok [F] ∧
        (W.rows = 1 ∧ V.rows = 1 ∧ W.get 0 0 + V.get 0 0 = 9 / 25) ∧
        (F.rows = 3 ∧ F.get 0 0 + F.get 1 1 + F.get 2 2 = 1) := by
  constructor
  · intro k m hk hm
    ext i j
    simp only [erasureOps, Matrix.mul_apply, conjTranspose_apply, Arr3.ops, Matrix.zero_apply]
    fin_cases k <;> fin_cases m <;> fin_cases i <;> fin_cases j <;>
      simp_all [Fin.sum_univ_succ]
  · obtain ⟨o, ho⟩ := init_exact false erasureOps 1 1 2 3 [1] (by decide) rfl rfl erasureOps_tp
    obtain ⟨p, hp⟩ := init_exact false erasureOps 1 1 2 3 [] (by decide) rfl rfl erasureOps_tp
    obtain ⟨W, V, h1, h2, h3, h4, h5, h6, h7, h8⟩ := exchange_orth 1 ho (by decide) [] 1
      ⟨by simp, by simp⟩ zeroState rfl rfl
    obtain ⟨F, f1, f2, f3, f4⟩ := api_exchange hp (Or.inr rfl) [] 1 ⟨by simp, by simp⟩ zeroState rfl rfl
    have hE : ∀ i j : Fin (3 ^ 1), Spec.entropyExchange (Spec.tensorPow (erasureOps.ops 3 (3 ^ 1) (2 ^ 1)) 1)
        (zeroState.mat ((2 ^ 1) ^ 1) ((2 ^ 1) ^ 1)) i j = ∑ x : Fin 3,
          erasureOps.get i x 0 * star (erasureOps.get j x 0) := by
      intro i j
      simp only [Spec.entropyExchange, trace, diag_apply, Matrix.mul_apply, tensorPow_one_apply,
        conjTranspose_apply, Arr.mat_apply, zeroState]
      change ∑ x : Fin 3, ∑ y : Fin 2, (∑ z : Fin 2, _) * _ = _
      apply Finset.sum_congr rfl
      intro x _
      simp [Fin.sum_univ_two]
    have w00 := (h7 0 0 (by decide) (by decide)).trans (hE ⟨0, by decide⟩ ⟨0, by decide⟩)
    have v00 := (h8 0 0 (by decide) (by decide)).trans (hE ⟨2, by decide⟩ ⟨2, by decide⟩)
    have f00 : ∀ i : Fin (3 ^ 1), F.get i i =
        Spec.entropyExchange (Spec.tensorPow (erasureOps.ops 3 (3 ^ 1) (2 ^ 1)) 1)
        (zeroState.mat ((2 ^ 1) ^ 1) ((2 ^ 1) ^ 1)) i i := fun i => congrFun (congrFun f4 i) i
    refine ⟨o, p, ho, hp, W, V, F, h1, f1, ⟨h2, h4, ?_⟩, f2, ?_⟩
    · rw [w00, v00]
      simp [erasureOps, Fin.sum_univ_succ, map_ofNat]
      norm_num
    · have a0 := f00 ⟨0, by decide⟩
      have a1 := f00 ⟨1, by decide⟩
      have a2 := f00 ⟨2, by decide⟩
      rw [hE] at a0 a1 a2
      simp only at a0 a1 a2
      rw [a0, a1, a2]
      simp [erasureOps, Fin.sum_univ_succ, map_ofNat]
      norm_num

/-! ### C31 -/

/-- The average entanglement fidelity `∑ p_i ∑_K |tr (K ρ_i)|²` of the textbook. -/
noncomputable def Spec.avgEntanglementFidelity {l n : ℕ} (K : Fin l → Matrix (Fin n) (Fin n) ℂ) :
    List (ℝ × Matrix (Fin n) (Fin n) ℂ) → ℝ
  | [] => 0
  | (p, ρ) :: rest => p * ∑ k, ‖trace (K k * ρ)‖ ^ 2 + Spec.avgEntanglementFidelity K rest

/-- C31, for dense objects and ensembles on which every product `K ρ_i` is a diagonal matrix: the method
returns `∑ p_i ∑_K |tr (K ρ_i)|²`.  Missing: all other ensembles (`C31_dense_refuted`) and sparse objects
(`C31_sparse_refuted`), for which the returned number is wrong. -/
theorem C31_fidelity_partial (N : ℕ) (hN : d ^ a = N) (hN' : e ^ b = N)
    (h : QChan.init false ops a b d e orth = .ok o) (calls : List QChan.Call)
    (ens : List (ℝ × Arr ℂ)) (hens : ∀ x ∈ ens, x.2.rows = N ∧ x.2.cols = N ∧
      ∀ k, Matrix.IsDiag (ops.ops ops.len N N k * x.2.mat N N)) :
    QChan.avgFidelity (QChan.history o calls) (ens.map Prod.fst) (ens.map Prod.snd) =
      .ok (Spec.avgEntanglementFidelity (ops.ops ops.len N N) (ens.map fun x => (x.1, x.2.mat N N))) := by
  obtain ⟨h1, h2, h3, h4, h5, h6, h7, h8, h9, h10, h11, h12⟩ := qchanInit_ok h
  obtain ⟨p1, p2, -⟩ := history_static o calls
  have hk : (QChan.history o calls).kraus = ops := p1.trans h2
  have hsp : (QChan.history o calls).sparse = false := p2.trans h3
  unfold QChan.avgFidelity
  induction ens with
  | nil => rfl
  | cons x xs ih =>
    obtain ⟨hr, hc, hdiag⟩ := hens x (by simp)
    have ih' := ih (fun y hy => hens y (by simp [hy]))
    simp only [List.map_cons, KrausObj.avgFidelity, Spec.avgEntanglementFidelity]
    rw [ih']
    have ht : (QChan.history o calls).fidTerm x.2 =
        .ok (∑ k, ‖trace (ops.ops ops.len N N k * x.2.mat N N)‖ ^ 2) := by
      rw [fidTerm_dense (by simp [hsp]) (by rw [hk, h10, hN, hr]), hk]
      congr 1
      rw [Finset.sum_range]
      apply Finset.sum_congr rfl
      intro k _
      congr 2
      rw [h10, h11, hc, hN, hN', Finset.sum_range]
      simp only [trace, diag_apply]
      apply Finset.sum_congr rfl
      intro i _
      rw [Finset.sum_comm, Finset.sum_range]
      have : ∀ j : Fin N, (∑ k' ∈ Finset.range N, ops.get k i k' * x.2.get k' j) =
          (ops.ops ops.len N N k * x.2.mat N N) i j := by
        intro j
        rw [Matrix.mul_apply, Finset.sum_range]
        rfl
      simp only [this]
      exact Finset.sum_eq_single i (fun j _ hj => hdiag k hj.symm) (by simp)
    rw [ht]
    rfl

/-- The state `|+><+|` of a qubit. -/
noncomputable def plusState : Arr ℂ := ⟨2, 2, fun _ _ => 1 / 2⟩

/-- The maximally mixed state of a qubit. -/
noncomputable def mixedState : Arr ℂ := ⟨2, 2, fun i j => if i = j then 1 / 2 else 0⟩

/-- C31 applies to the dephasing channel and an ensemble of diagonal states; the value is `1/2`. -/
example : ∃ o, QChan.init false dephOps 1 1 2 2 [] = .ok o ∧
    QChan.avgFidelity o [1] [mixedState] = .ok (1 / 2) := by
  obtain ⟨o, ho⟩ := deph_ok false []
  refine ⟨o, ho, ?_⟩
  have := C31_fidelity_partial 2 rfl rfl ho [] [(1, mixedState)] (by
    intro x hx
    simp only [List.mem_cons, List.not_mem_nil, or_false] at hx
    subst hx
    refine ⟨rfl, rfl, fun k i j hij => ?_⟩
    change (dephOps.ops dephOps.len 2 2 k * mixedState.mat 2 2) i j = 0
    rw [Matrix.mul_apply]
    apply Finset.sum_eq_zero
    intro x _
    simp only [dephOps, Arr3.ops, Arr.mat_apply, mixedState]
    have hij' : (i : ℕ) ≠ j := fun hh => hij (Fin.ext hh)
    by_cases h : (i : ℕ) = x
    · rw [if_neg (c := (x : ℕ) = j) (by omega), mul_zero]
    · rw [if_neg (by tauto), zero_mul])
  refine Eq.trans this ?_
  congr 1
  simp only [List.map_cons, List.map_nil, Spec.avgEntanglementFidelity]
  change 1 * ∑ k : Fin 2, _ + 0 = _
  simp [Fin.sum_univ_two, trace, Matrix.mul_apply, dephOps, Arr3.ops, mixedState]
  norm_num

/-- C31 is false for dense objects: on `|+><+|` the dephasing channel has entanglement fidelity `1/2`, and
the method returns `2`. -/
theorem C31_dense_refuted :
    Spec.avgEntanglementFidelity (dephOps.ops 2 2 2) [(1, plusState.mat 2 2)] = 1 / 2 ∧
    ∃ o, QChan.init false dephOps 1 1 2 2 [] = .ok o ∧
      QChan.avgFidelity o [1] [plusState] = .ok 2 := by
  constructor
  · simp [Spec.avgEntanglementFidelity, Fin.sum_univ_two, trace, Matrix.mul_apply, dephOps, Arr3.ops, plusState]
    norm_num
  · obtain ⟨o, ho⟩ := deph_ok false []
    obtain ⟨h1, h2, h3, -⟩ := qchanInit_ok ho
    refine ⟨o, ho, ?_⟩
    unfold QChan.avgFidelity KrausObj.avgFidelity KrausObj.avgFidelity
    rw [fidTerm_dense (by simp [h3]) (by rw [h2]; rfl), h2]
    simp only [bind, Except.bind, pure, Except.pure]
    congr 1
    simp [dephOps, plusState, Finset.sum_range_succ, -Finset.sum_boole]
    norm_num

theorem idOps_avgFidelity (sp : Bool) : ∃ o, QChan.init sp (idOps 1) 1 1 2 2 [] = .ok o ∧
    QChan.avgFidelity o [1] [mixedState] = .ok (if sp then 1 / 4 else 1) := by
  obtain ⟨o, ho⟩ := init_exact sp (idOps 1) 1 1 2 2 [] (by decide) rfl rfl (idOps_tp 1)
  obtain ⟨h1, h2, h3, -⟩ := qchanInit_ok ho
  refine ⟨o, ho, ?_⟩
  unfold QChan.avgFidelity KrausObj.avgFidelity KrausObj.avgFidelity
  cases sp
  · rw [fidTerm_dense (by simp [h3]) (by rw [h2]; rfl), h2, if_neg (by simp)]
    simp only [bind, Except.bind, pure, Except.pure]
    congr 1
    simp [idOps, mixedState, Finset.sum_range_succ]
    norm_num
  · rw [fidTerm_sparse h3 (by rw [h2]; rfl), h2, if_pos rfl]
    simp only [bind, Except.bind, pure, Except.pure]
    congr 1
    simp [idOps, mixedState, Finset.sum_range_succ]
    norm_num

/-- C31 is false for sparse objects: the identity channel has entanglement fidelity one on every state,
and on the maximally mixed state of a qubit the method returns `1/4`. -/
theorem C31_sparse_refuted :
    Spec.avgEntanglementFidelity ((idOps 1).ops 1 2 2) [(1, mixedState.mat 2 2)] = 1 ∧
    ∃ o, QChan.init true (idOps 1) 1 1 2 2 [] = .ok o ∧
      QChan.avgFidelity o [1] [mixedState] = .ok (1 / 4) := by
  constructor
  · simp [Spec.avgEntanglementFidelity, trace, Matrix.mul_apply, idOps, Arr3.ops, mixedState, Fin.sum_univ_two]
    norm_num
  · exact idOps_avgFidelity true

/-- C28 is false for `average_entanglement_fidelity`: sparse and dense identity channels disagree. -/
theorem C28_fidelity_refuted :
    ∃ os od, QChan.init true (idOps 1) 1 1 2 2 [] = .ok os ∧ QChan.init false (idOps 1) 1 1 2 2 [] = .ok od ∧
      QChan.avgFidelity os [1] [mixedState] ≠ QChan.avgFidelity od [1] [mixedState] := by
  obtain ⟨os, h1, h2⟩ := idOps_avgFidelity true
  obtain ⟨od, h3, h4⟩ := idOps_avgFidelity false
  refine ⟨os, od, h1, h3, ?_⟩
  rw [h2, h4]
  intro h
  injection h with h
  norm_num at h

/-- C31, error branches: fewer states than probabilities raise `IndexError`, a state with a wrong number of
rows raises `ValueError` -- for a dense object unless numpy broadcasts it, because it has one row or the input space has
dimension one. -/
theorem C31_errors (h : QChan.init sp ops a b d e orth = .ok o) (calls : List QChan.Call) (p : ℝ) (ps : List ℝ) :
    QChan.avgFidelity (QChan.history o calls) (p :: ps) [] = .error .index ∧
    ∀ (s : Arr ℂ) (ss : List (Arr ℂ)), s.rows ≠ d ^ a → (sp = false → s.rows ≠ 1 ∧ d ^ a ≠ 1) →
      QChan.avgFidelity (QChan.history o calls) (p :: ps) (s :: ss) = .error .value := by
  obtain ⟨h1, h2, h3, h4, h5, h6, h7, h8, h9, h10, h11, h12⟩ := qchanInit_ok h
  obtain ⟨p1, p2, -⟩ := history_static o calls
  refine ⟨rfl, fun s ss hs hb => ?_⟩
  unfold QChan.avgFidelity KrausObj.avgFidelity KrausObj.fidTerm
  rw [p1, p2, h2, h3]
  cases sp with
  | true =>
    rw [if_pos rfl, if_neg (by rw [h10]; exact fun hh => hs hh.symm)]
    rfl
  | false =>
    rw [if_neg (by simp), h10, einsumDim_error (Ne.symm hs) (hb rfl).2 (hb rfl).1]
    rfl

/-- A dense object does not notice a state with one row where it has more: numpy repeats that row, so the value is that
of the matrix whose rows are all equal to it.  A sparse object raises `ValueError` (`C31_errors`). -/
theorem C31_broadcast_refuted (h : QChan.init false ops a b d e orth = .ok o) (calls : List QChan.Call) (p : ℝ)
    (s : Arr ℂ) (hs : s.rows = 1) :
    QChan.avgFidelity (QChan.history o calls) [p] [s] =
      QChan.avgFidelity (QChan.history o calls) [p] [⟨d ^ a, s.cols, fun _ j => s.get 0 j⟩] ∧
    ∃ v, QChan.avgFidelity (QChan.history o calls) [p] [s] = .ok v := by
  obtain ⟨h1, h2, h3, h4, h5, h6, h7, h8, h9, h10, h11, h12⟩ := qchanInit_ok h
  obtain ⟨p1, p2, -⟩ := history_static o calls
  have hd : einsumDim (d ^ a) s.rows = .ok (d ^ a) := by rw [hs, einsumDim_one]
  have hterm : ∃ v, (QChan.history o calls).fidTerm s = .ok v ∧
      (QChan.history o calls).fidTerm ⟨d ^ a, s.cols, fun _ j => s.get 0 j⟩ = .ok v := by
    rw [fidTerm_dense (state := ⟨d ^ a, s.cols, fun _ j => s.get 0 j⟩) (by simp [p2, h3]) (by rw [p1, h2, h10])]
    unfold KrausObj.fidTerm
    rw [p1, p2, h2, h3, if_neg (by simp), h10, hd]
    simp only [bind, Except.bind, pure, Except.pure]
    refine ⟨_, rfl, ?_⟩
    congr 1
    refine Finset.sum_congr rfl fun i _ => ?_
    congr 2
    refine Finset.sum_congr rfl fun j _ => Finset.sum_congr rfl fun k hk => Finset.sum_congr rfl fun q _ => ?_
    rw [Finset.mem_range] at hk
    rw [einsumIdx_lt hk, hs]
    rfl
  obtain ⟨v, v1, v2⟩ := hterm
  unfold QChan.avgFidelity KrausObj.avgFidelity KrausObj.avgFidelity
  rw [v1, v2]
  exact ⟨rfl, _, rfl⟩

/-- `C31_broadcast_refuted` applies to a row vector given to the dense dephasing channel. -/
example : ∃ o v, QChan.init false dephOps 1 1 2 2 [] = .ok o ∧
    QChan.avgFidelity o [1] [⟨1, 2, fun _ _ => 1⟩] = .ok v := by
  obtain ⟨o, ho⟩ := deph_ok false []
  obtain ⟨v, hv⟩ := (C31_broadcast_refuted ho [] 1 ⟨1, 2, fun _ _ => 1⟩ rfl).2
  exact ⟨o, v, ho, hv⟩

/-- C28 is false for batches of matrices: a dense object accepts every batch (`C23_batch`), while a sparse
object with more than one operator rejects every batch of another length than one or the number of
operators. -/
theorem C28_batch_refuted (h : QChan.init true ops a b d e orth = .ok o) (hl : ops.len ≠ 1) (rho : Arr3 ℂ)
    (h1 : rho.len ≠ 1) (h2 : rho.len ≠ ops.len) :
    o.channelBatchSparse rho false = .error .value := by
  obtain ⟨g1, g2, -⟩ := qchanInit_ok h
  unfold KrausObj.channelBatchSparse
  rw [factors_holds g1]
  have : o.nth = ops := by rw [g1.nth, g2]; rfl
  rw [this]
  unfold Arr3.matmul3
  simp only [Bool.false_eq_true, if_false]
  rw [if_neg (by rintro ⟨-, h' | h' | h'⟩ <;> [exact h2 h'.symm; exact hl h'; exact h1 h'])]
  rfl

end PyQ
