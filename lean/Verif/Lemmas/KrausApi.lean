import Verif.Lemmas.Kraus

/-! Helper lemmas: the `AnalyticQChan` methods after any safe history, and the trace condition. -/

namespace PyQ

open Matrix

theorem foldl_add_get (g : ℕ → Arr ℂ) (L : ℕ) (z : Arr ℂ) (k m : ℕ) :
    ((List.range L).foldl (fun acc i => acc.add (g i)) z).get k m =
      z.get k m + ∑ i ∈ Finset.range L, (g i).get k m := by
  induction L with
  | zero => simp
  | succ L ih =>
    rw [List.range_succ, List.foldl_append, Finset.sum_range_succ]
    rw [List.foldl_cons, List.foldl_nil]
    change Arr.get _ k m + (g L).get k m = _
    rw [ih, add_assoc]

theorem traceCond_get (o : KrausObj) (k m : Fin o.kraus.cols) :
    o.traceCond.get k m =
      (∑ i, (o.kraus.ops o.kraus.len o.kraus.rows o.kraus.cols i)ᴴ *
        o.kraus.ops o.kraus.len o.kraus.rows o.kraus.cols i) k m := by
  have hr : (∑ i, (o.kraus.ops o.kraus.len o.kraus.rows o.kraus.cols i)ᴴ *
        o.kraus.ops o.kraus.len o.kraus.rows o.kraus.cols i) k m =
      ∑ i ∈ Finset.range o.kraus.len, ∑ j ∈ Finset.range o.kraus.rows,
        star (o.kraus.get i j k) * o.kraus.get i j m := by
    simp only [Matrix.sum_apply, Matrix.mul_apply, conjTranspose_apply, Arr3.ops, Finset.sum_range]
  rw [hr]
  unfold KrausObj.traceCond
  by_cases hs : o.sparse = true
  · simp only [if_pos hs]
    rw [foldl_add_get]
    simp [Arr.zeros]
  · simp only [if_neg hs]

theorem isTP_of_exact (o : KrausObj)
    (h : Spec.TracePreserving (o.kraus.ops o.kraus.len o.kraus.rows o.kraus.cols)) : o.isTP := by
  intro k hk m hm
  rw [traceCond_get o ⟨k, hk⟩ ⟨m, hm⟩, show _ = (1 : Matrix _ _ ℂ) from h, Matrix.one_apply]
  simp only [Fin.mk.injEq, sub_self, norm_zero]
  norm_num

/-- The constructor succeeds when the shapes are right and the operators pass the trace check. -/
theorem init_tp (sp : Bool) (ops : Arr3 ℂ) (a b d e : ℕ) (orth : List ℕ) (hl : 0 < ops.len)
    (hc : ops.cols = d ^ a) (hr : ops.rows = e ^ b)
    (h : ∀ o : KrausObj, o.kraus = ops → o.isTP) :
    ∃ o, QChan.init sp ops a b d e orth = .ok o := by
  obtain ⟨x, hx⟩ := tensordot_conj ops
  unfold QChan.init KrausObj.init
  simp only [pyAssert, if_pos (Or.inr hc : ops.len = 0 ∨ ops.cols = d ^ a),
    if_pos (Or.inr hr : ops.len = 0 ∨ ops.rows = e ^ b), KrausObj.exchange, ite_self, hx]
  simp only [bind, Except.bind, pure, Except.pure, if_neg hl.ne']
  rw [if_pos (h _ rfl)]
  exact ⟨_, rfl⟩

/-- The constructor raises `AssertionError` when the operators fail the trace check. -/
theorem init_not_tp (sp : Bool) (ops : Arr3 ℂ) (a b d e : ℕ) (orth : List ℕ) (hl : 0 < ops.len)
    (hc : ops.cols = d ^ a) (hr : ops.rows = e ^ b)
    (h : ∀ o : KrausObj, o.kraus = ops → ¬ o.isTP) :
    QChan.init sp ops a b d e orth = .error .assertion := by
  obtain ⟨x, hx⟩ := tensordot_conj ops
  unfold QChan.init KrausObj.init
  simp only [pyAssert, if_pos (Or.inr hc : ops.len = 0 ∨ ops.cols = d ^ a),
    if_pos (Or.inr hr : ops.len = 0 ∨ ops.rows = e ^ b), KrausObj.exchange, ite_self, hx]
  simp only [bind, Except.bind, pure, Except.pure, if_neg hl.ne']
  rw [if_neg (h _ rfl)]

/-- The constructor raises `AssertionError` when the shapes are wrong. -/
theorem init_bad_shape (sp : Bool) (ops : Arr3 ℂ) (a b d e : ℕ) (orth : List ℕ) (hl : 0 < ops.len)
    (h : ops.cols ≠ d ^ a ∨ ops.rows ≠ e ^ b) :
    KrausObj.init sp ops a b d e orth = .error .assertion ∧
      QChan.init sp ops a b d e orth = .error .assertion := by
  have key : ∀ orth, KrausObj.init sp ops a b d e orth = .error .assertion := by
    intro orth
    unfold KrausObj.init
    by_cases hc : ops.len = 0 ∨ ops.cols = d ^ a
    · have hr : ¬ (ops.len = 0 ∨ ops.rows = e ^ b) := by
        rintro (h' | h')
        · omega
        · exact h.elim (fun hh => hh (hc.resolve_left hl.ne')) (fun hh => hh h')
      simp only [pyAssert, if_pos hc, if_neg hr]
      rfl
    · simp only [pyAssert, if_neg hc]
      rfl
  refine ⟨key _, ?_⟩
  unfold QChan.init
  rw [key]
  rfl

/-- An object can be constructed from every exactly trace preserving list of operators. -/
theorem init_exact (sp : Bool) (ops : Arr3 ℂ) (a b d e : ℕ) (orth : List ℕ) (hl : 0 < ops.len)
    (hc : ops.cols = d ^ a) (hr : ops.rows = e ^ b)
    (h : Spec.TracePreserving (ops.ops ops.len (e ^ b) (d ^ a))) :
    ∃ o, QChan.init sp ops a b d e orth = .ok o :=
  init_tp sp ops a b d e orth hl hc hr (by
    rintro o rfl
    apply isTP_of_exact
    rw [hc, hr]
    exact h)

variable {sp : Bool} {ops : Arr3 ℂ} {a b d e : ℕ} {orth : List ℕ} {o : KrausObj}

theorem api_channel (h : QChan.init sp ops a b d e orth = .ok o) (calls : List QChan.Call) (n : ℕ)
    (hsafe : Spec.SafeUses sp (calls.map QChan.Call.uses ++ [n])) (rho : Arr ℂ)
    (hr : rho.rows = (d ^ a) ^ n) (hc : rho.cols = (d ^ a) ^ n) :
    ∃ out, (QChan.channel (QChan.history o calls) rho n false).1 = .ok out ∧
      out.rows = (e ^ b) ^ n ∧ out.cols = (e ^ b) ^ n ∧
      out.mat ((e ^ b) ^ n) ((e ^ b) ^ n) =
        Spec.applyKraus (Spec.tensorPow (ops.ops ops.len (e ^ b) (d ^ a)) n)
          (rho.mat ((d ^ a) ^ n) ((d ^ a) ^ n)) := by
  obtain ⟨h1, h2, h3, h4, h5, h6, h7, h8, h9, h10, h11, h12⟩ := qchanInit_ok h
  obtain ⟨hn, g1, g2, g3⟩ := reach h1 calls n (h3 ▸ hsafe)
  have hk : (QChan.sync (QChan.history o calls) n).2.kraus = ops := g3.1.trans h2
  obtain ⟨out, e1, e2, e3, e4⟩ := channel_holds hn g2 rho (by rw [hk, h10, hr]) (by rw [hk, h10, hc])
  rw [hk, h10, h11] at e4
  rw [hk, h11] at e2 e3
  refine ⟨out, ?_, e2, e3, e4⟩
  unfold QChan.channel
  rcases hs : QChan.sync (QChan.history o calls) n with ⟨x, o'⟩
  rw [hs] at g1 e1
  simp only at g1 e1
  subst g1
  exact e1

theorem api_channel_adj (h : QChan.init sp ops a b d e orth = .ok o) (calls : List QChan.Call) (n : ℕ)
    (hsafe : Spec.SafeUses sp (calls.map QChan.Call.uses ++ [n])) (rho : Arr ℂ)
    (hr : rho.rows = (e ^ b) ^ n) (hc : rho.cols = (e ^ b) ^ n) :
    ∃ out, (QChan.channel (QChan.history o calls) rho n true).1 = .ok out ∧
      out.rows = (d ^ a) ^ n ∧ out.cols = (d ^ a) ^ n ∧
      out.mat ((d ^ a) ^ n) ((d ^ a) ^ n) =
        Spec.adjointKraus (Spec.tensorPow (ops.ops ops.len (e ^ b) (d ^ a)) n)
          (rho.mat ((e ^ b) ^ n) ((e ^ b) ^ n)) := by
  obtain ⟨h1, h2, h3, h4, h5, h6, h7, h8, h9, h10, h11, h12⟩ := qchanInit_ok h
  obtain ⟨hn, g1, g2, g3⟩ := reach h1 calls n (h3 ▸ hsafe)
  have hk : (QChan.sync (QChan.history o calls) n).2.kraus = ops := g3.1.trans h2
  obtain ⟨out, e1, e2, e3, e4⟩ := channel_adj_holds hn g2 rho (by rw [hk, h11, hr]) (by rw [hk, h11, hc])
  rw [hk, h10, h11] at e4
  rw [hk, h10] at e2 e3
  refine ⟨out, ?_, e2, e3, e4⟩
  unfold QChan.channel
  rcases hs : QChan.sync (QChan.history o calls) n with ⟨x, o'⟩
  rw [hs] at g1 e1
  simp only at g1 e1
  subst g1
  exact e1

theorem api_exchange (h : QChan.init sp ops a b d e orth = .ok o) (ho : sp = true ∨ orth = [])
    (calls : List QChan.Call) (n : ℕ)
    (hsafe : Spec.SafeUses sp (calls.map QChan.Call.uses ++ [n])) (rho : Arr ℂ)
    (hr : rho.rows = (d ^ a) ^ n) (hc : rho.cols = (d ^ a) ^ n) :
    ∃ W, (QChan.entropyExchange (QChan.history o calls) rho n).1 = .ok [W] ∧
      W.rows = ops.len ^ n ∧ W.cols = ops.len ^ n ∧
      W.mat (ops.len ^ n) (ops.len ^ n) =
        Spec.entropyExchange (Spec.tensorPow (ops.ops ops.len (e ^ b) (d ^ a)) n)
          (rho.mat ((d ^ a) ^ n) ((d ^ a) ^ n)) := by
  obtain ⟨h1, h2, h3, h4, h5, h6, h7, h8, h9, h10, h11, h12⟩ := qchanInit_ok h
  obtain ⟨hn, g1, g2, g3⟩ := reach h1 calls n (h3 ▸ hsafe)
  have hk : (QChan.sync (QChan.history o calls) n).2.kraus = ops := g3.1.trans h2
  obtain ⟨out, e1, e2, e3, e4⟩ := exchange_holds hn g2 (by
      rw [g3.2.1, g3.2.2.2.2.2.2, h3, h8]
      rcases ho with ho | ho
      · exact Or.inl ho
      · right; rw [ho]; exact ite_self _) rho (by rw [hk, h10, hr]) (by rw [hk, h10, hc])
  rw [hk, h10, h11] at e4
  rw [hk] at e2 e3
  refine ⟨out, ?_, e2, e3, e4⟩
  unfold QChan.entropyExchange
  rcases hs : QChan.sync (QChan.history o calls) n with ⟨x, o'⟩
  rw [hs] at g1 e1
  simp only at g1 e1
  subst g1
  exact e1

theorem api_exchange_adj (h : QChan.init sp ops a b d e orth = .ok o)
    (calls : List QChan.Call) (n : ℕ)
    (hsafe : Spec.SafeUses sp (calls.map QChan.Call.uses ++ [n])) (sigma : Arr ℂ)
    (hr : sigma.rows = ops.len ^ n) (hc : sigma.cols = ops.len ^ n) :
    ∃ out, (QChan.entropyExchangeAdj (QChan.history o calls) sigma n).1 = .ok out ∧
      out.rows = (d ^ a) ^ n ∧ out.cols = (d ^ a) ^ n ∧
      out.mat ((d ^ a) ^ n) ((d ^ a) ^ n) =
        Spec.entropyExchangeAdj (Spec.tensorPow (ops.ops ops.len (e ^ b) (d ^ a)) n)
          (sigma.mat (ops.len ^ n) (ops.len ^ n)) := by
  obtain ⟨h1, h2, h3, h4, h5, h6, h7, h8, h9, h10, h11, h12⟩ := qchanInit_ok h
  obtain ⟨hn, g1, g2, g3⟩ := reach h1 calls n (h3 ▸ hsafe)
  have hk : (QChan.sync (QChan.history o calls) n).2.kraus = ops := g3.1.trans h2
  obtain ⟨out, e1, e2, e3, e4⟩ := exchange_adj_holds hn g2 sigma (by rw [hk, hr]) (by rw [hk, hc])
  rw [hk, h10, h11] at e4
  rw [hk, h10] at e2 e3
  refine ⟨out, ?_, e2, e3, e4⟩
  unfold QChan.entropyExchangeAdj
  rcases hs : QChan.sync (QChan.history o calls) n with ⟨x, o'⟩
  rw [hs] at g1 e1
  simp only at g1 e1
  subst g1
  exact e1

theorem api_batch (h : QChan.init false ops a b d e orth = .ok o) (calls : List QChan.Call) (n : ℕ)
    (hsafe : Spec.SafeUses false (calls.map QChan.Call.uses ++ [n])) (rho : Arr3 ℂ)
    (hr : rho.rows = (d ^ a) ^ n) (hc : rho.cols = (d ^ a) ^ n) :
    ∃ out, (QChan.channelBatch (QChan.history o calls) rho n false).1 = .ok out ∧
      out.len = rho.len ∧ out.rows = (e ^ b) ^ n ∧ out.cols = (e ^ b) ^ n ∧
      ∀ m : ℕ, (out.nth m).mat ((e ^ b) ^ n) ((e ^ b) ^ n) =
        Spec.applyKraus (Spec.tensorPow (ops.ops ops.len (e ^ b) (d ^ a)) n)
          ((rho.nth m).mat ((d ^ a) ^ n) ((d ^ a) ^ n)) := by
  obtain ⟨h1, h2, h3, h4, h5, h6, h7, h8, h9, h10, h11, h12⟩ := qchanInit_ok h
  obtain ⟨hn, g1, g2, g3⟩ := reach h1 calls n (h3 ▸ hsafe)
  have hk : (QChan.sync (QChan.history o calls) n).2.kraus = ops := g3.1.trans h2
  have hops := nth_ops hn g2
  obtain ⟨d1, d2, d3⟩ := nth_dims hn g2
  rw [hk, h10, h11] at hops
  rw [hk] at d1 d2 d3
  rw [h11] at d2
  rw [h10] at d3
  unfold QChan.channelBatch
  rcases hs : QChan.sync (QChan.history o calls) n with ⟨x, o'⟩
  rw [hs] at g1 g2 hops d1 d2 d3
  simp only at g1 g2 hops d1 d2 d3
  subst g1
  simp only
  rw [channelBatchDense_eq (by rw [factors_holds g2]; exact d3.trans hr.symm) (by rw [factors_holds g2]; rfl)
    (by rw [factors_holds g2]; exact hc.trans d3.symm), factors_holds g2]
  simp only [Bool.false_eq_true, if_false]
  refine ⟨_, rfl, rfl, d2, d2, ?_⟩
  intro m
  rw [← hops]
  ext i j
  simp only [Arr.mat_apply, Arr3.nth, Spec.applyKraus, Matrix.sum_apply, Matrix.mul_apply,
    conjTranspose_apply, Arr3.ops, Arr3.conjT, d1, d3, hc, Finset.sum_range]

end PyQ
