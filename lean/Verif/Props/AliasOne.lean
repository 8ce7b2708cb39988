import Verif.Props.Alias

/-!
# C71: what a dense channel built from an array still guarantees
-/

namespace PyQ

open Matrix

/-- A call for one use of an object that is set to one use leaves the operators alone. -/
theorem after_one (o : KrausObj) (hcur : o.curN = 1) (c : QChan.Call) (hc : c.uses = 1) :
    (c.after o).curN = 1 ∧ (c.after o).nth = o.nth ∧ (c.after o).sparse = o.sparse := by
  have hs : QChan.sync o 1 = (.ok (), o) := by
    unfold QChan.sync
    rw [if_neg (by rw [hcur]; simp)]
  have hu : (o.update 1).2.curN = 1 ∧ (o.update 1).2.nth = o.nth ∧ (o.update 1).2.sparse = o.sparse := by
    have hret : o.retensor 1 = o := by
      unfold KrausObj.retensor
      rw [if_neg (by omega), if_neg (by omega)]
    unfold KrausObj.update
    simp only [hret]
    cases ({ o with curN := 1 } : KrausObj).exchange <;> simp
  cases c with
  | channel rho n adj =>
    obtain rfl : n = 1 := hc
    simp [QChan.Call.after, QChan.channel, hs, hcur]
  | channelBatch rho n adj =>
    obtain rfl : n = 1 := hc
    simp [QChan.Call.after, QChan.channelBatch, hs, hcur]
  | exchange rho n =>
    obtain rfl : n = 1 := hc
    simp [QChan.Call.after, QChan.entropyExchange, hs, hcur]
  | exchangeAdj rho n =>
    obtain rfl : n = 1 := hc
    simp [QChan.Call.after, QChan.entropyExchangeAdj, hs, hcur]
  | update n =>
    obtain rfl : n = 1 := hc
    exact hu

variable {ops : Arr3 ℂ} {a b d e : ℕ} {orth : List ℕ}

/-- **C71 (b), partial**.  A dense channel built from an array that has only been asked for one use so far still applies the operators it
was built with, whatever the caller wrote into the array and in whatever order. -/
theorem C71_one_use_partial (s : Shared) (h : Shared.init false (.array ops) a b d e orth = .ok s) (events : List Shared.Event)
    (hone : ∀ c ∈ Shared.calls events, c.uses = 1) (rho : Arr ℂ) (hr : rho.rows = d ^ a) (hc : rho.cols = d ^ a) :
    ∃ out, (QChan.channel (events.foldl Shared.after s).obj rho 1 false).1 = .ok out ∧ out.rows = e ^ b ∧ out.cols = e ^ b ∧
      out.mat (e ^ b) (e ^ b) = Spec.applyKraus (ops.ops ops.len (e ^ b) (d ^ a)) (rho.mat (d ^ a) (d ^ a)) := by
  have hq : ∃ o, QChan.init false ops a b d e orth = .ok o ∧ s = ⟨o, true, false⟩ := by
    unfold Shared.init at h
    rcases hq : QChan.init false ops a b d e orth with y | o
    · simp only [hq] at h; cases h
    · simp only [hq] at h; cases h
      exact ⟨o, rfl, rfl⟩
  obtain ⟨o, ho, rfl⟩ := hq
  obtain ⟨h1, h2, h3, h4, h5, h6, h7, h8, h9, h10, h11, h12⟩ := qchanInit_ok ho
  have hnth : o.nth = ops := by rw [h1.nth, h2]; rfl
  have key : ∀ (events : List Shared.Event) (s : Shared), (∀ c ∈ Shared.calls events, c.uses = 1) →
      (s.nthShared = false ∧ s.obj.curN = 1 ∧ s.obj.nth = ops ∧ s.obj.sparse = false) →
      (events.foldl Shared.after s).obj.curN = 1 ∧ (events.foldl Shared.after s).obj.nth = ops ∧
        (events.foldl Shared.after s).obj.sparse = false := by
    intro events
    induction events with
    | nil => intro s _ hs; exact hs.2
    | cons ev es ih =>
      intro s hone hs
      rw [List.foldl_cons]
      cases ev with
      | call c =>
        have hu := hone c (by simp [Shared.calls])
        refine ih _ (fun c' hc' => hone c' (by simp [Shared.calls, hc'])) ?_
        obtain ⟨g1, g2, g3⟩ := after_one s.obj hs.2.1 c hu
        refine ⟨?_, g1, g2.trans hs.2.2.1, g3.trans hs.2.2.2⟩
        show s.sharedAt c.uses = false
        unfold Shared.sharedAt
        rw [hu, hs.2.1, if_neg (by omega), if_neg (by omega), hs.1]
      | write v =>
        refine ih _ hone ?_
        have hw : s.after (.write v) = s.write v := rfl
        rw [hw]
        unfold Shared.write
        split
        · simp [hs.1, hs.2.1, hs.2.2.1, hs.2.2.2]
        · exact hs
  obtain ⟨k1, k2, k3⟩ := key events ⟨o, true, false⟩ hone ⟨rfl, h1.cur, hnth, h3⟩
  obtain ⟨out, e1, e2, e3, e4⟩ := channel_of_nth _ k3 ops k2 rho (e ^ b) (d ^ a) h11 h10 hr hc
  refine ⟨out, ?_, e2, e3, e4⟩
  unfold QChan.channel QChan.sync
  rw [if_neg (by rw [k1]; simp)]
  exact e1

/-- The identity channel as an array, a call, a write and another call: the hypotheses are met and the channel is still the
identity. -/
example : ∃ s out, Shared.init false (.array wireOps) 1 1 2 2 [] = .ok s ∧
    (QChan.channel ([.call (.update 1), .write flipped, .call (.channel ketZero 1 false)].foldl Shared.after s).obj
      ketZero 1 false).1 = .ok out ∧ out.get 0 0 = 1 := by
  obtain ⟨o, ho⟩ := wireOps_ok
  have hs : Shared.init false (.array wireOps) 1 1 2 2 [] = .ok ⟨o, true, false⟩ := by
    unfold Shared.init
    simp only [ho]
    rfl
  obtain ⟨out, h1, -, -, h4⟩ := C71_one_use_partial _ hs [.call (.update 1), .write flipped, .call (.channel ketZero 1 false)]
    (by simp [Shared.calls, QChan.Call.uses]) ketZero rfl rfl
  refine ⟨_, out, hs, h1, ?_⟩
  have := congrFun (congrFun h4 0) 0
  refine Eq.trans rfl (this.trans ?_)
  change (∑ k : Fin 1, wireOps.ops 1 2 2 k * ketZero.mat 2 2 * (wireOps.ops 1 2 2 k)ᴴ) (0 : Fin 2) (0 : Fin 2) = 1
  simp [wireOps, ketZero, Arr3.ops, Arr.mat, Matrix.mul_apply, Fin.sum_univ_two]

end PyQ
