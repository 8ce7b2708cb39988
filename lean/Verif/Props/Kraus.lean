import Verif.Lemmas.KrausApi

/-!
# C23, C24, C27, C28, C29: Kraus channels

`QChan.init … = .ok o` says that `AnalyticQChan(kraus_ops, [a, b], d, e, orth, sparse)` succeeded.
`QChan.history o calls` is the object after any sequence of API calls on it, whether or not they raised;
`Spec.SafeUses` asks for positive numbers of uses and, for sparse objects only, that the last call does not
request one use after several uses (C27 shows what happens then).
-/

namespace PyQ

open Matrix

variable {sp : Bool} {ops : Arr3 ℂ} {a b d e : ℕ} {orth : List ℕ} {o : KrausObj}

/-! ### A concrete channel for the examples -/

/-- The operators `|0><0|` and `|1><1|` of the completely dephasing qubit channel. -/
def dephOps : Arr3 ℂ := ⟨2, 2, 2, fun k i j => if k = i ∧ i = j then 1 else 0⟩

theorem dephOps_tp : Spec.TracePreserving (dephOps.ops dephOps.len (2 ^ 1) (2 ^ 1)) := by
  unfold Spec.TracePreserving
  change ∑ i : Fin 2, (dephOps.ops 2 2 2 i)ᴴ * dephOps.ops 2 2 2 i = (1 : Matrix (Fin 2) (Fin 2) ℂ)
  ext i j
  simp only [dephOps, Matrix.sum_apply, Matrix.mul_apply, conjTranspose_apply, Arr3.ops, Matrix.one_apply]
  fin_cases i <;> fin_cases j <;> simp [Fin.sum_univ_two]

/-- The dephasing channel can be constructed, dense and sparse. -/
theorem deph_ok (sp : Bool) (orth : List ℕ) : ∃ o, QChan.init sp dephOps 1 1 2 2 orth = .ok o :=
  init_exact sp dephOps 1 1 2 2 orth (by decide) rfl rfl dephOps_tp

/-- C23.  After any safe history, `channel(rho, n)` returns `∑ K ρ K†` over the `n`-fold tensor products
of the operators given to the constructor. -/
theorem C23_channel (h : QChan.init sp ops a b d e orth = .ok o) (calls : List QChan.Call) (n : ℕ)
    (hsafe : Spec.SafeUses sp (calls.map QChan.Call.uses ++ [n])) (rho : Arr ℂ)
    (hr : rho.rows = (d ^ a) ^ n) (hc : rho.cols = (d ^ a) ^ n) :
    ∃ out, (QChan.channel (QChan.history o calls) rho n false).1 = .ok out ∧
      out.rows = (e ^ b) ^ n ∧ out.cols = (e ^ b) ^ n ∧
      out.mat ((e ^ b) ^ n) ((e ^ b) ^ n) =
        Spec.applyKraus (Spec.tensorPow (ops.ops ops.len (e ^ b) (d ^ a)) n)
          (rho.mat ((d ^ a) ^ n) ((d ^ a) ^ n)) :=
  api_channel h calls n hsafe rho hr hc

/-- C23 for a batch of matrices (dense objects): every matrix of the batch is sent through the channel. -/
theorem C23_batch (h : QChan.init false ops a b d e orth = .ok o) (calls : List QChan.Call) (n : ℕ)
    (hsafe : Spec.SafeUses false (calls.map QChan.Call.uses ++ [n])) (rho : Arr3 ℂ)
    (hr : rho.rows = (d ^ a) ^ n) (hc : rho.cols = (d ^ a) ^ n) :
    ∃ out, (QChan.channelBatch (QChan.history o calls) rho n false).1 = .ok out ∧
      out.len = rho.len ∧ out.rows = (e ^ b) ^ n ∧ out.cols = (e ^ b) ^ n ∧
      ∀ m : ℕ, (out.nth m).mat ((e ^ b) ^ n) ((e ^ b) ^ n) =
        Spec.applyKraus (Spec.tensorPow (ops.ops ops.len (e ^ b) (d ^ a)) n)
          ((rho.nth m).mat ((d ^ a) ^ n) ((d ^ a) ^ n)) :=
  api_batch h calls n hsafe rho hr hc

open scoped ComplexOrder in
/-- C23.  The output is Hermitian if the input is, positive if the input is, and has the trace of the
input if the operators given to the constructor satisfy `∑ K† K = 1`. -/
theorem C23_state_properties (h : QChan.init sp ops a b d e orth = .ok o) (calls : List QChan.Call)
    (n : ℕ) (hsafe : Spec.SafeUses sp (calls.map QChan.Call.uses ++ [n])) (rho : Arr ℂ)
    (hr : rho.rows = (d ^ a) ^ n) (hc : rho.cols = (d ^ a) ^ n) :
    ∃ out, (QChan.channel (QChan.history o calls) rho n false).1 = .ok out ∧
      ((rho.mat ((d ^ a) ^ n) ((d ^ a) ^ n)).IsHermitian →
        (out.mat ((e ^ b) ^ n) ((e ^ b) ^ n)).IsHermitian) ∧
      ((rho.mat ((d ^ a) ^ n) ((d ^ a) ^ n)).PosSemidef →
        (out.mat ((e ^ b) ^ n) ((e ^ b) ^ n)).PosSemidef) ∧
      (Spec.TracePreserving (ops.ops ops.len (e ^ b) (d ^ a)) →
        trace (out.mat ((e ^ b) ^ n) ((e ^ b) ^ n)) = trace (rho.mat ((d ^ a) ^ n) ((d ^ a) ^ n))) := by
  obtain ⟨out, h1, h2, h3, h4⟩ := api_channel h calls n hsafe rho hr hc
  refine ⟨out, h1, ?_, ?_, ?_⟩ <;> rw [h4]
  · intro hh
    rw [Matrix.IsHermitian, Spec.applyKraus_conjTranspose, hh.eq]
  · exact Spec.applyKraus_posSemidef _
  · intro htp
    exact Spec.applyKraus_trace _ (Spec.tensorPow_tp _ n htp) _

/-- C23.  The channel is linear. -/
theorem C23_linear (h : QChan.init sp ops a b d e orth = .ok o) (c₁ c₂ c₃ : List QChan.Call) (n : ℕ)
    (h₁ : Spec.SafeUses sp (c₁.map QChan.Call.uses ++ [n]))
    (h₂ : Spec.SafeUses sp (c₂.map QChan.Call.uses ++ [n]))
    (h₃ : Spec.SafeUses sp (c₃.map QChan.Call.uses ++ [n])) (z : ℂ) (rho sigma : Arr ℂ)
    (hr : rho.rows = (d ^ a) ^ n) (hc : rho.cols = (d ^ a) ^ n)
    (hr' : sigma.rows = (d ^ a) ^ n) (hc' : sigma.cols = (d ^ a) ^ n) :
    ∃ x y w, (QChan.channel (QChan.history o c₁) rho n false).1 = .ok x ∧
      (QChan.channel (QChan.history o c₂) sigma n false).1 = .ok y ∧
      (QChan.channel (QChan.history o c₃) ((rho.smul z).add sigma) n false).1 = .ok w ∧
      Arr.Same w ((x.smul z).add y) := by
  obtain ⟨x, x1, x2, x3, x4⟩ := api_channel h c₁ n h₁ rho hr hc
  obtain ⟨y, y1, y2, y3, y4⟩ := api_channel h c₂ n h₂ sigma hr' hc'
  obtain ⟨w, w1, w2, w3, w4⟩ := api_channel h c₃ n h₃ ((rho.smul z).add sigma) hr hc
  refine ⟨x, y, w, x1, y1, w1, w2.trans x2.symm, w3.trans x3.symm, ?_⟩
  intro i hi j hj
  rw [w2] at hi
  rw [w3] at hj
  have e1 : ((rho.smul z).add sigma).mat ((d ^ a) ^ n) ((d ^ a) ^ n) =
      z • rho.mat ((d ^ a) ^ n) ((d ^ a) ^ n) + sigma.mat ((d ^ a) ^ n) ((d ^ a) ^ n) := rfl
  rw [e1, Spec.applyKraus_add, Spec.applyKraus_smul, ← x4, ← y4] at w4
  exact congrFun (congrFun w4 ⟨i, hi⟩) ⟨j, hj⟩

/-- C23, error branch: a matrix with the wrong number of rows or columns raises `ValueError`. -/
theorem C23_wrong_shape (h : QChan.init sp ops a b d e orth = .ok o) (calls : List QChan.Call)
    (n : ℕ) (hsafe : Spec.SafeUses sp (calls.map QChan.Call.uses ++ [n])) (rho : Arr ℂ)
    (hbad : rho.rows ≠ (d ^ a) ^ n ∨ rho.cols ≠ (d ^ a) ^ n) :
    (QChan.channel (QChan.history o calls) rho n false).1 = .error .value := by
  obtain ⟨h1, h2, h3, h4, h5, h6, h7, h8, h9, h10, h11, h12⟩ := qchanInit_ok h
  obtain ⟨hn, g1, g2, g3⟩ := reach h1 calls n (h3 ▸ hsafe)
  have hk : (QChan.sync (QChan.history o calls) n).2.kraus = ops := g3.1.trans h2
  obtain ⟨d1, d2, d3⟩ := nth_dims hn g2
  rw [hk, h10] at d3
  unfold QChan.channel
  rcases hs : QChan.sync (QChan.history o calls) n with ⟨x, o'⟩
  rw [hs] at g1 g2 d3
  simp only at g1 g2 d3
  subst g1
  simp only
  unfold KrausObj.channel
  rw [factors_holds g2]
  simp only [Bool.false_eq_true, if_false]
  by_cases hrow : rho.rows = (d ^ a) ^ n
  · have hcol := hbad.resolve_left (fun hh => hh hrow)
    unfold Arr3.matmul2
    rw [if_pos (d3.trans hrow.symm)]
    simp only [bind, Except.bind]
    unfold Arr3.matmul3
    simp only
    rw [if_neg]
    rintro ⟨hh, _⟩
    exact hcol (hh.trans d3)
  · unfold Arr3.matmul2
    rw [if_neg (fun hh => hrow (hh.symm.trans d3))]
    rfl

/-- The hypotheses of the C23 theorems are met by the dephasing channel, sparse, after evaluating two and
then three uses. -/
example : ∃ o, QChan.init true dephOps 1 1 2 2 [] = .ok o ∧
    ∃ out, (QChan.channel (QChan.history o [.update 2, .channel (Arr.eye 1) 3 false])
      (Arr.eye ((2 ^ 1) ^ 5)) 5 false).1 = .ok out ∧
      trace (out.mat ((2 ^ 1) ^ 5) ((2 ^ 1) ^ 5)) = 32 := by
  obtain ⟨o, ho⟩ := deph_ok true []
  obtain ⟨out, h1, _, _, h4⟩ := C23_state_properties ho [.update 2, .channel (Arr.eye 1) 3 false] 5
    (by constructor
        · intro m hm
          simp only [List.map_cons, QChan.Call.uses, List.map_nil, List.cons_append, List.nil_append,
            List.mem_cons, List.not_mem_nil, or_false] at hm
          omega
        · intro _; simp [QChan.Call.uses])
    (Arr.eye ((2 ^ 1) ^ 5)) rfl rfl
  refine ⟨o, ho, out, h1, ?_⟩
  rw [h4 dephOps_tp]
  have : (Arr.eye ((2 ^ 1) ^ 5) : Arr ℂ).mat ((2 ^ 1) ^ 5) ((2 ^ 1) ^ 5) = 1 := by
    ext i j
    simp only [Arr.mat_apply, Arr.eye, Matrix.one_apply, Fin.ext_iff]
  rw [this, Matrix.trace_one]
  norm_num

/-! ### C24 -/

/-- C24.  `trace(channel(rho) sigma) = trace(rho channel(sigma, adjoint=True))`, for any two safe
histories of the object. -/
theorem C24_channel_duality (h : QChan.init sp ops a b d e orth = .ok o) (c₁ c₂ : List QChan.Call) (n : ℕ)
    (h₁ : Spec.SafeUses sp (c₁.map QChan.Call.uses ++ [n]))
    (h₂ : Spec.SafeUses sp (c₂.map QChan.Call.uses ++ [n])) (rho sigma : Arr ℂ)
    (hr : rho.rows = (d ^ a) ^ n) (hc : rho.cols = (d ^ a) ^ n)
    (hr' : sigma.rows = (e ^ b) ^ n) (hc' : sigma.cols = (e ^ b) ^ n) :
    ∃ x y, (QChan.channel (QChan.history o c₁) rho n false).1 = .ok x ∧
      (QChan.channel (QChan.history o c₂) sigma n true).1 = .ok y ∧
      trace (x.mat ((e ^ b) ^ n) ((e ^ b) ^ n) * sigma.mat ((e ^ b) ^ n) ((e ^ b) ^ n)) =
        trace (rho.mat ((d ^ a) ^ n) ((d ^ a) ^ n) * y.mat ((d ^ a) ^ n) ((d ^ a) ^ n)) := by
  obtain ⟨x, x1, _, _, x4⟩ := api_channel h c₁ n h₁ rho hr hc
  obtain ⟨y, y1, _, _, y4⟩ := api_channel_adj h c₂ n h₂ sigma hr' hc'
  exact ⟨x, y, x1, y1, by rw [x4, y4]; exact Spec.duality _ _ _⟩

/-- C24.  The same for the entropy exchange and its adjoint. -/
theorem C24_exchange_duality (h : QChan.init sp ops a b d e orth = .ok o) (ho : sp = true ∨ orth = [])
    (c₁ c₂ : List QChan.Call) (n : ℕ)
    (h₁ : Spec.SafeUses sp (c₁.map QChan.Call.uses ++ [n]))
    (h₂ : Spec.SafeUses sp (c₂.map QChan.Call.uses ++ [n])) (rho sigma : Arr ℂ)
    (hr : rho.rows = (d ^ a) ^ n) (hc : rho.cols = (d ^ a) ^ n)
    (hr' : sigma.rows = ops.len ^ n) (hc' : sigma.cols = ops.len ^ n) :
    ∃ W y, (QChan.entropyExchange (QChan.history o c₁) rho n).1 = .ok [W] ∧
      (QChan.entropyExchangeAdj (QChan.history o c₂) sigma n).1 = .ok y ∧
      trace (W.mat (ops.len ^ n) (ops.len ^ n) * sigma.mat (ops.len ^ n) (ops.len ^ n)) =
        trace (rho.mat ((d ^ a) ^ n) ((d ^ a) ^ n) * y.mat ((d ^ a) ^ n) ((d ^ a) ^ n)) := by
  obtain ⟨x, x1, _, _, x4⟩ := api_exchange h ho c₁ n h₁ rho hr hc
  obtain ⟨y, y1, _, _, y4⟩ := api_exchange_adj h c₂ n h₂ sigma hr' hc'
  exact ⟨x, y, x1, y1, by rw [x4, y4]; exact Spec.exchange_duality _ _ _⟩

/-- C24.  The adjoint of a trace preserving channel maps the identity to the identity. -/
theorem C24_unital (h : QChan.init sp ops a b d e orth = .ok o) (calls : List QChan.Call) (n : ℕ)
    (hsafe : Spec.SafeUses sp (calls.map QChan.Call.uses ++ [n]))
    (htp : Spec.TracePreserving (ops.ops ops.len (e ^ b) (d ^ a))) :
    ∃ out, (QChan.channel (QChan.history o calls) (Arr.eye ((e ^ b) ^ n)) n true).1 = .ok out ∧
      Arr.Same out (Arr.eye ((d ^ a) ^ n)) := by
  obtain ⟨y, y1, y2, y3, y4⟩ := api_channel_adj h calls n hsafe (Arr.eye ((e ^ b) ^ n)) rfl rfl
  refine ⟨y, y1, y2, y3, ?_⟩
  have he : ∀ m : ℕ, (Arr.eye m : Arr ℂ).mat m m = 1 := by
    intro m
    ext i j
    simp only [Arr.mat_apply, Arr.eye, Matrix.one_apply, Fin.ext_iff]
  rw [he, Spec.adjointKraus_one _ (Spec.tensorPow_tp _ n htp), ← he] at y4
  intro i hi j hj
  rw [y2] at hi
  rw [y3] at hj
  exact congrFun (congrFun y4 ⟨i, hi⟩) ⟨j, hj⟩

/-- The hypotheses of C24 are met by the dephasing channel and three uses. -/
example : ∃ o, QChan.init false dephOps 1 1 2 2 [] = .ok o ∧
    Spec.SafeUses false ([QChan.Call.update 7].map QChan.Call.uses ++ [3]) ∧
    Spec.TracePreserving (dephOps.ops dephOps.len (2 ^ 1) (2 ^ 1)) := by
  obtain ⟨o, ho⟩ := deph_ok false []
  exact ⟨o, ho, ⟨by simp [QChan.Call.uses], by simp⟩, dephOps_tp⟩

/-! ### C29 -/

open scoped ComplexOrder in
/-- C29.  `entropy_exchange(rho, n)` returns one matrix `W` with `W i j = trace(K_i ρ K_j†)` for the
`n`-fold operators; its trace is the trace of `channel(rho, n)`; it is Hermitian or positive if `ρ` is. -/
theorem C29_entropy_exchange (h : QChan.init sp ops a b d e orth = .ok o) (ho : sp = true ∨ orth = [])
    (calls : List QChan.Call) (n : ℕ)
    (hsafe : Spec.SafeUses sp (calls.map QChan.Call.uses ++ [n])) (rho : Arr ℂ)
    (hr : rho.rows = (d ^ a) ^ n) (hc : rho.cols = (d ^ a) ^ n) :
    ∃ W out, (QChan.entropyExchange (QChan.history o calls) rho n).1 = .ok [W] ∧
      (QChan.channel (QChan.history o calls) rho n false).1 = .ok out ∧
      W.rows = ops.len ^ n ∧ W.cols = ops.len ^ n ∧
      (∀ i j : Fin (ops.len ^ n), W.get i j =
        trace (Spec.tensorPow (ops.ops ops.len (e ^ b) (d ^ a)) n i *
          rho.mat ((d ^ a) ^ n) ((d ^ a) ^ n) *
          (Spec.tensorPow (ops.ops ops.len (e ^ b) (d ^ a)) n j)ᴴ)) ∧
      trace (W.mat (ops.len ^ n) (ops.len ^ n)) = trace (out.mat ((e ^ b) ^ n) ((e ^ b) ^ n)) ∧
      ((rho.mat ((d ^ a) ^ n) ((d ^ a) ^ n)).IsHermitian →
        (W.mat (ops.len ^ n) (ops.len ^ n)).IsHermitian) ∧
      ((rho.mat ((d ^ a) ^ n) ((d ^ a) ^ n)).PosSemidef →
        (W.mat (ops.len ^ n) (ops.len ^ n)).PosSemidef) := by
  obtain ⟨W, x1, x2, x3, x4⟩ := api_exchange h ho calls n hsafe rho hr hc
  obtain ⟨y, y1, _, _, y4⟩ := api_channel h calls n hsafe rho hr hc
  refine ⟨W, y, x1, y1, x2, x3, ?_, ?_, ?_, ?_⟩
  · intro i j
    exact congrFun (congrFun x4 i) j
  · rw [x4, y4]
    exact Spec.exchange_trace _ _
  · intro hh
    rw [x4, Matrix.IsHermitian, Spec.exchange_conjTranspose, hh.eq]
  · rw [x4]
    exact Spec.exchange_posSemidef _

/-- The hypotheses of C29 are met by the sparse dephasing channel and two uses. -/
example : ∃ o, QChan.init true dephOps 1 1 2 2 [] = .ok o ∧
    ∃ W, (QChan.entropyExchange (QChan.history o []) (Arr.eye ((2 ^ 1) ^ 2)) 2).1 = .ok [W] ∧
      W.rows = 4 := by
  obtain ⟨o, ho⟩ := deph_ok true []
  obtain ⟨W, out, h1, _, h3, _⟩ := C29_entropy_exchange ho (Or.inl rfl) [] 2
    ⟨by simp, by simp⟩ (Arr.eye ((2 ^ 1) ^ 2)) rfl rfl
  exact ⟨o, ho, W, h1, h3⟩

/-! ### C28 -/

/-- C28.  A sparse and a dense object built from the same operators return the same arrays from `channel`
(also with `adjoint=True`), `entropy_exchange` and its adjoint, after any safe histories. -/
theorem C28_sparse_dense_partial {os od : KrausObj} {orth' : List ℕ}
    (hs : QChan.init true ops a b d e orth' = .ok os) (hd : QChan.init false ops a b d e [] = .ok od)
    (c₁ c₂ : List QChan.Call) (n : ℕ)
    (h₁ : Spec.SafeUses true (c₁.map QChan.Call.uses ++ [n]))
    (h₂ : Spec.SafeUses false (c₂.map QChan.Call.uses ++ [n])) :
    (∀ rho : Arr ℂ, rho.rows = (d ^ a) ^ n → rho.cols = (d ^ a) ^ n →
      ∃ x y, (QChan.channel (QChan.history os c₁) rho n false).1 = .ok x ∧
        (QChan.channel (QChan.history od c₂) rho n false).1 = .ok y ∧ Arr.Same x y) ∧
    (∀ rho : Arr ℂ, rho.rows = (e ^ b) ^ n → rho.cols = (e ^ b) ^ n →
      ∃ x y, (QChan.channel (QChan.history os c₁) rho n true).1 = .ok x ∧
        (QChan.channel (QChan.history od c₂) rho n true).1 = .ok y ∧ Arr.Same x y) ∧
    (∀ rho : Arr ℂ, rho.rows = (d ^ a) ^ n → rho.cols = (d ^ a) ^ n →
      ∃ x y, (QChan.entropyExchange (QChan.history os c₁) rho n).1 = .ok [x] ∧
        (QChan.entropyExchange (QChan.history od c₂) rho n).1 = .ok [y] ∧ Arr.Same x y) ∧
    (∀ rho : Arr ℂ, rho.rows = ops.len ^ n → rho.cols = ops.len ^ n →
      ∃ x y, (QChan.entropyExchangeAdj (QChan.history os c₁) rho n).1 = .ok x ∧
        (QChan.entropyExchangeAdj (QChan.history od c₂) rho n).1 = .ok y ∧ Arr.Same x y) := by
  have key : ∀ (x y : Arr ℂ) (r c : ℕ), x.rows = r → x.cols = c → y.rows = r → y.cols = c →
      x.mat r c = y.mat r c → Arr.Same x y := by
    intro x y r c h1 h2 h3 h4 h5
    rw [Arr.same_iff_mat, h1, h2, h3, h4]
    exact ⟨rfl, rfl, h5⟩
  refine ⟨?_, ?_, ?_, ?_⟩
  · intro rho hr hc
    obtain ⟨x, x1, x2, x3, x4⟩ := api_channel hs c₁ n h₁ rho hr hc
    obtain ⟨y, y1, y2, y3, y4⟩ := api_channel hd c₂ n h₂ rho hr hc
    exact ⟨x, y, x1, y1, key x y _ _ x2 x3 y2 y3 (x4.trans y4.symm)⟩
  · intro rho hr hc
    obtain ⟨x, x1, x2, x3, x4⟩ := api_channel_adj hs c₁ n h₁ rho hr hc
    obtain ⟨y, y1, y2, y3, y4⟩ := api_channel_adj hd c₂ n h₂ rho hr hc
    exact ⟨x, y, x1, y1, key x y _ _ x2 x3 y2 y3 (x4.trans y4.symm)⟩
  · intro rho hr hc
    obtain ⟨x, x1, x2, x3, x4⟩ := api_exchange hs (Or.inl rfl) c₁ n h₁ rho hr hc
    obtain ⟨y, y1, y2, y3, y4⟩ := api_exchange hd (Or.inr rfl) c₂ n h₂ rho hr hc
    exact ⟨x, y, x1, y1, key x y _ _ x2 x3 y2 y3 (x4.trans y4.symm)⟩
  · intro rho hr hc
    obtain ⟨x, x1, x2, x3, x4⟩ := api_exchange_adj hs c₁ n h₁ rho hr hc
    obtain ⟨y, y1, y2, y3, y4⟩ := api_exchange_adj hd c₂ n h₂ rho hr hc
    exact ⟨x, y, x1, y1, key x y _ _ x2 x3 y2 y3 (x4.trans y4.symm)⟩

/-- The hypotheses of C28 are met by the dephasing channel. -/
example : ∃ os od, QChan.init true dephOps 1 1 2 2 [1] = .ok os ∧
    QChan.init false dephOps 1 1 2 2 [] = .ok od := by
  obtain ⟨os, hs⟩ := deph_ok true [1]
  obtain ⟨od, hd⟩ := deph_ok false []
  exact ⟨os, od, hs, hd⟩

/-! ### C27 -/

/-- C27.  After any nonempty safe history whose last call is for `n` uses, the object says that it is at
`n` uses and `nth_kraus_operators` are the `n`-fold tensor products of the given operators: the earlier
calls do not matter.  For dense objects every history of positive `n` is safe. -/
theorem C27_history_partial (h : QChan.init sp ops a b d e orth = .ok o) (calls : List QChan.Call)
    (last : QChan.Call)
    (hsafe : Spec.SafeUses sp (calls.map QChan.Call.uses ++ [last.uses])) :
    let o' := QChan.history o (calls ++ [last])
    o'.curN = last.uses ∧ o'.nth.len = ops.len ^ last.uses ∧ o'.nth.rows = (e ^ b) ^ last.uses ∧
      o'.nth.cols = (d ^ a) ^ last.uses ∧
      o'.nth.ops (ops.len ^ last.uses) ((e ^ b) ^ last.uses) ((d ^ a) ^ last.uses) =
        Spec.tensorPow (ops.ops ops.len (e ^ b) (d ^ a)) last.uses ∧
      QChan.inputDimension o' = (d ^ a) ^ last.uses ∧ QChan.outputDimension o' = (e ^ b) ^ last.uses := by
  obtain ⟨h1, h2, h3, h4, h5, h6, h7, h8, h9, h10, h11, h12⟩ := qchanInit_ok h
  obtain ⟨m, q1, q2, q3, q4⟩ := history_holds o (calls ++ [last]) h1 ⟨by
      intro x hx
      simp only [List.map_append, List.map_cons, List.map_nil, List.mem_cons] at hx
      rcases hx with rfl | hx
      · exact le_rfl
      · exact hsafe.1 x hx, by
      intro hs hl x hx
      rcases List.mem_cons.mp hx with rfl | hx
      · rfl
      · rw [List.map_append, List.map_cons, List.map_nil] at hl hx
        refine hsafe.2 (h3 ▸ hs) ?_ x hx
        rw [List.getLast?_append_of_ne_nil _ (by simp)]
        rw [List.getLast?_cons, List.getLast?_append_of_ne_nil _ (by simp)] at hl
        simpa using hl⟩
  have hm : m = last.uses := by rw [q2]; simp
  subst hm
  have hk := q4.1.trans h2
  obtain ⟨d1, d2, d3⟩ := nth_dims q1 q3
  have hops := nth_ops q1 q3
  rw [hk] at d1 d2 d3 hops
  rw [h10, h11] at hops
  rw [h11] at d2
  rw [h10] at d3
  refine ⟨q3.cur, d1, d2, d3, hops, ?_, ?_⟩
  · unfold QChan.inputDimension
    rw [q3.cur, q4.2.2.2.2.1, q4.2.2.1, h6, h4]
  · unfold QChan.outputDimension
    rw [q3.cur, q4.2.2.2.2.2.1, q4.2.2.2.1, h7, h5]

/-- C27 is false for sparse objects: for every sparse channel with dimensions of at least two, `channel(rho, 1)` raises
`ValueError` as soon as any earlier call asked for two uses or more, whatever the other calls and whatever the
matrix (of the right width). -/
theorem C27_sparse_return_refuted (h : QChan.init true ops a b d e orth = .ok o) (hd : 2 ≤ e ^ b) (hd' : 2 ≤ d ^ a)
    (calls : List QChan.Call) (hpos : ∀ c ∈ calls, 1 ≤ c.uses) (hmore : ∃ c ∈ calls, 2 ≤ c.uses)
    (rho : Arr ℂ) (hc : rho.cols = d ^ a) :
    (QChan.channel (QChan.history o calls) rho 1 false).1 = .error .value := by
  obtain ⟨h1, h2, h3, h4, h5, h6, h7, h8, h9, h10, h11, h12⟩ := qchanInit_ok h
  obtain ⟨m, p, q1, q2, q3, q4⟩ := history_stale calls h3 le_rfl
    (p := 1) ⟨h1.near, by rw [h1.conj h3, h1.nth], le_rfl, fun h => absurd rfl h⟩ hpos
  have hp2 := q4 (Or.inl hmore)
  generalize QChan.history o calls = O at q2 q3
  have hsp : O.sparse = true := q3.2.1.trans h3
  have hk : O.kraus = ops := q3.1.trans h2
  obtain ⟨d1, d2, d3⟩ := powArr_dims ops q2.pos
  have hgt : ∀ x : ℕ, 2 ≤ x → x < x ^ p := fun x hx => by
    calc x = x ^ 1 := (pow_one x).symm
      _ < x ^ p := Nat.pow_lt_pow_right (by omega) (by omega)
  by_cases hm : m = 1
  · subst hm
    have hs : QChan.sync O 1 = (.ok (), O) := by
      unfold QChan.sync
      rw [if_neg (by rw [q2.near.cur]; simp)]
    unfold QChan.channel
    rw [hs]
    simp only
    unfold KrausObj.channel
    have hf : (O.factors false).2 = O.nthConj := by
      unfold KrausObj.factors
      simp [hsp]
    rw [hf]
    unfold Arr3.matmul2
    split_ifs with hx
    · simp only [bind, Except.bind]
      unfold Arr3.matmul3
      rw [if_neg]
      rintro ⟨hy, -⟩
      change rho.cols = O.nthConj.rows at hy
      rw [q2.conj, hk, hc] at hy
      change d ^ a = (powArr ops p).cols at hy
      rw [d3, h10] at hy
      exact absurd hy (hgt _ hd').ne
    · rfl
  · have hpm := q2.eq hm
    subst hpm
    have hu : (QChan.sync O 1).1 = .error .value := by
      unfold QChan.sync
      rw [if_pos (by rw [q2.near.cur]; omega)]
      have hret : O.retensor 1 = { O with nth := O.kraus } := by
        unfold KrausObj.retensor
        rw [if_neg (by rw [q2.near.cur]; omega), if_pos (by rw [q2.near.cur]; omega), if_pos rfl]
      have : ({ O.retensor 1 with curN := 1 } : KrausObj).exchange = .error .value := by
        rw [hret]
        unfold KrausObj.exchange
        simp only [if_pos hsp]
        unfold Arr3.tensordot
        rw [if_neg]
        rw [q2.conj, hk]
        change (powArr ops p).rows ≠ ops.rows
        rw [d2, h11]
        exact (hgt _ hd).ne'
      unfold KrausObj.update
      simp only [this]
    unfold QChan.channel
    rcases hs : QChan.sync O 1 with ⟨y, o'⟩
    rw [hs] at hu
    simp only at hu
    subst hu
    rfl

/-- C27, which calls a sparse channel supports: with dimensions of at least two and positive numbers of uses,
`channel(rho, n)` succeeds, for matrices of the right shape, exactly if `n` is at least two or no earlier call asked
for several uses.  Earlier calls that raised do no further harm. -/
theorem C27_sparse_iff (h : QChan.init true ops a b d e orth = .ok o) (hd : 2 ≤ e ^ b) (hd' : 2 ≤ d ^ a)
    (calls : List QChan.Call) (hpos : ∀ c ∈ calls, 1 ≤ c.uses) (n : ℕ) (hn : 1 ≤ n)
    (rho : Arr ℂ) (hr : rho.rows = (d ^ a) ^ n) (hc : rho.cols = (d ^ a) ^ n) :
    (∃ out, (QChan.channel (QChan.history o calls) rho n false).1 = .ok out) ↔ (n = 1 → ∀ c ∈ calls, c.uses = 1) := by
  constructor
  · rintro ⟨out, hout⟩ rfl c hcm
    by_contra hne
    rw [C27_sparse_return_refuted h hd hd' calls hpos ⟨c, hcm, by have := hpos c hcm; omega⟩ rho (by rw [hc, pow_one])] at hout
    cases hout
  · intro hall
    obtain ⟨out, hout, -⟩ := C23_channel h calls n ⟨by
        intro x hx
        simp only [List.mem_append, List.mem_map, List.mem_cons, List.not_mem_nil, or_false] at hx
        rcases hx with ⟨c, hcm, rfl⟩ | rfl
        · exact hpos c hcm
        · exact hn, by
        intro _ hl x hx
        have hn1 : n = 1 := by simpa using hl
        simp only [List.mem_append, List.mem_map, List.mem_cons, List.not_mem_nil, or_false] at hx
        rcases hx with ⟨c, hcm, rfl⟩ | rfl
        · exact hall hn1 c hcm
        · exact hn1⟩ rho hr hc
    exact ⟨out, hout⟩

/-- `n = 0` is not rejected and breaks the bookkeeping: after `update_kraus_operators(0)` a request for two
uses gives the operators of four uses. -/
theorem C27_zero_uses_refuted (h : QChan.init false ops a b d e orth = .ok o) :
    (QChan.history o [.update 0, .update 2]).curN = 2 ∧
      (QChan.history o [.update 0, .update 2]).nth.rows = (e ^ b) ^ 4 := by
  obtain ⟨h1, h2, h3, h4, h5, h6, h7, h8, h9, h10, h11, h12⟩ := qchanInit_ok h
  simp only [QChan.history, List.foldl_cons, List.foldl_nil, QChan.Call.after]
  have up : ∀ (p : KrausObj) (n : ℕ), p.sparse = false →
      (p.update n).2.curN = n ∧ (p.update n).2.nth = (p.retensor n).nth ∧
      (p.update n).2.kraus = (p.retensor n).kraus ∧ (p.update n).2.sparse = (p.retensor n).sparse := by
    intro p n _
    unfold KrausObj.update
    simp only
    rcases ({ p.retensor n with curN := n } : KrausObj).exchange with x | x <;>
      exact ⟨rfl, rfl, rfl, rfl⟩
  have hr0 : o.retensor 0 = o.setTensor o.kraus o.kraus := by
    unfold KrausObj.retensor
    rw [if_neg (by omega), if_pos (by rw [h1.cur]; decide), if_neg (by decide)]
    rfl
  obtain ⟨u1, u2, u3, u4⟩ := up o 0 h3
  rw [hr0] at u2 u3 u4
  generalize (o.update 0).2 = p at u1 u2 u3 u4
  obtain ⟨v1, v2, v3, v4⟩ := up p 2 (u4.trans h3)
  refine ⟨v1, ?_⟩
  rw [v2]
  unfold KrausObj.retensor
  rw [if_pos (by omega), u1]
  simp only [Nat.sub_zero, List.range'_succ, List.range'_zero, List.foldl_cons, List.foldl_nil,
    KrausObj.setTensor, Arr3.kron, u2, u3, h2, h11]
  ring

/-- The sparse dephasing channel after calls for three uses and for one use, of which the second raised: two uses
still work, one use does not. -/
example : ∃ o, QChan.init true dephOps 1 1 2 2 [] = .ok o ∧
    (∃ out, (QChan.channel (QChan.history o [.update 3, .update 1]) (Arr.eye 4) 2 false).1 = .ok out) ∧
    (QChan.channel (QChan.history o [.update 3, .update 1]) (Arr.eye 2) 1 false).1 = .error .value := by
  obtain ⟨o, ho⟩ := deph_ok true []
  refine ⟨o, ho, (C27_sparse_iff ho (by norm_num) (by norm_num) _ (by simp [QChan.Call.uses]) 2 (by norm_num) _ rfl rfl).mpr
    (by norm_num), C27_sparse_return_refuted ho (by norm_num) (by norm_num) _ (by simp [QChan.Call.uses])
    ⟨.update 3, by simp, by simp [QChan.Call.uses]⟩ _ rfl⟩

/-- The hypotheses of the C27 theorems are met: the dense dephasing channel goes through `3, 1, 2`. -/
example : ∃ o, QChan.init false dephOps 1 1 2 2 [] = .ok o ∧
    (QChan.history o [.update 3, .update 1, .update 2]).nth.rows = 4 := by
  obtain ⟨o, ho⟩ := deph_ok false []
  exact ⟨o, ho, (C27_history_partial ho [.update 3, .update 1] (.update 2)
    ⟨by simp [QChan.Call.uses], by simp⟩).2.2.1⟩

example : ∃ o, QChan.init true dephOps 1 1 2 2 [] = .ok o ∧ 2 ≤ 2 ^ 1 := by
  obtain ⟨o, ho⟩ := deph_ok true []
  exact ⟨o, ho, le_rfl⟩

end PyQ
