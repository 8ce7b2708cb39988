import Verif.Model.Alias
import Verif.Props.KrausCompose
import Verif.Props.ChoiInfo

/-! # C71: a channel does not depend on what happens to the array it was built from

True for lists and for sparse objects, false for dense objects built from an array. -/

namespace PyQ

open Matrix

/-- **C71 (a), partial**.  An object built from a list, or a sparse object, is not affected by writes of the caller: after
any events it is the object after the calls among them. -/
theorem C71_copied_partial (sp : Bool) (given : Given) (a b d e : ℕ) (orth : List ℕ) (s : Shared)
    (h : Shared.init sp given a b d e orth = .ok s) (hcopy : sp = true ∨ ∃ l, given = .list l)
    (events : List Shared.Event) :
    (events.foldl Shared.after s).obj = QChan.history s.obj (Shared.calls events) := by
  have hs : s.krausShared = false := by
    unfold Shared.init at h
    rcases given with l | A
    · rcases hq : QChan.ofList sp l a b d e orth with x | o
      · simp only [hq] at h; cases h
      · simp only [hq] at h; cases h; rfl
    · rcases hq : QChan.init sp A a b d e orth with x | o
      · simp only [hq] at h; cases h
      · simp only [hq] at h; cases h
        rcases hcopy with hcopy | ⟨l, hl⟩
        · simp [hcopy]
        · cases hl
  clear h hcopy
  induction events generalizing s with
  | nil => rfl
  | cons ev es ih =>
    rw [List.foldl_cons]
    rcases ev with c | v
    · rw [ih (s.after (.call c)) hs]
      rfl
    · have : s.after (.write v) = s := by
        simp [Shared.after, Shared.write, hs]
      rw [this, ih s hs]
      rfl

variable {ops : Arr3 ℂ} {a b d e : ℕ} {orth : List ℕ}

/-- The array after the write. -/
def newOps (ops : Arr3 ℂ) (v : ℕ → ℕ → ℕ → ℂ) : Arr3 ℂ := ⟨ops.len, ops.rows, ops.cols, v⟩

/-- `KrausObj.channel` for the operators held. -/
theorem channel_of_nth (o : KrausObj) (hsp : o.sparse = false) (A : Arr3 ℂ) (hA : o.nth = A) (rho : Arr ℂ) (r c : ℕ)
    (hr : A.rows = r) (hc : A.cols = c) (h1 : rho.rows = c) (h2 : rho.cols = c) :
    ∃ out, o.channel rho false = .ok out ∧ out.rows = r ∧ out.cols = r ∧
      out.mat r r = Spec.applyKraus (A.ops A.len r c) (rho.mat c c) := by
  obtain ⟨out, e1, e2, e3, e4⟩ := sandwich A A.conjT rho A.len r c c r rfl rfl hc h1 h2 hc hr hr
  refine ⟨out, ?_, e2, e3, ?_⟩
  · unfold KrausObj.channel KrausObj.factors
    simp only [hsp, hA, Bool.false_eq_true, if_false]
    exact e1
  · rw [e4]; rfl

/-- Growing to two uses. -/
theorem update_two (o : KrausObj) (hsp : o.sparse = false) (hcur : o.curN = 1) :
    (o.update 2).1 = .ok () ∧ (o.update 2).2.nth = o.kraus.kron o.nth ∧ (o.update 2).2.kraus = o.kraus ∧
      (o.update 2).2.sparse = false ∧ (o.update 2).2.curN = 2 := by
  have hret : o.retensor 2 = o.setTensor o.kraus o.nth := by
    unfold KrausObj.retensor
    rw [if_pos (by omega), hcur]
    rfl
  unfold KrausObj.update
  simp only [hret]
  unfold KrausObj.exchange KrausObj.setTensor Arr3.tensordot
  simp only [hsp, Bool.false_eq_true, if_false, Arr3.conjT]
  simp

/-- Going back to one use. -/
theorem update_one (o : KrausObj) (hsp : o.sparse = false) (hcur : 1 < o.curN) :
    (o.update 1).1 = .ok () ∧ (o.update 1).2.nth = o.kraus ∧ (o.update 1).2.kraus = o.kraus ∧
      (o.update 1).2.sparse = false ∧ (o.update 1).2.curN = 1 := by
  have hret : o.retensor 1 = { o with nth := o.kraus } := by
    unfold KrausObj.retensor
    rw [if_neg (by omega), if_pos hcur, if_pos rfl]
  unfold KrausObj.update
  simp only [hret]
  unfold KrausObj.exchange Arr3.tensordot
  simp only [hsp, Bool.false_eq_true, if_false, Arr3.conjT]
  simp

/-- **C71 refuted**.  A dense channel is built from an array of operators and the caller then changes the array.
* One use still applies the old operators.
* Two uses on a product `ρ ⊗ σ` apply the *new* channel to `ρ` and the *old* channel to `σ`.
* After that one use applies the new operators. -/
theorem C71_array_refuted (s : Shared) (h : Shared.init false (.array ops) a b d e orth = .ok s) (v : ℕ → ℕ → ℕ → ℂ)
    (rho sigma : Arr ℂ) (hr : rho.rows = d ^ a) (hc : rho.cols = d ^ a) (hr' : sigma.rows = d ^ a)
    (hc' : sigma.cols = d ^ a) (x : Arr ℂ) :
    let new := Spec.applyKraus ((newOps ops v).ops ops.len (e ^ b) (d ^ a))
    let old := Spec.applyKraus (ops.ops ops.len (e ^ b) (d ^ a))
    (∃ out, (QChan.channel (s.write v).obj rho 1 false).1 = .ok out ∧
      out.mat (e ^ b) (e ^ b) = old (rho.mat (d ^ a) (d ^ a))) ∧
    (∃ out, (QChan.channel (s.write v).obj (rho.kron sigma) 2 false).1 = .ok out ∧
      out.mat (e ^ b * e ^ b) (e ^ b * e ^ b) =
        Spec.kron (new (rho.mat (d ^ a) (d ^ a))) (old (sigma.mat (d ^ a) (d ^ a)))) ∧
    (∃ out, (QChan.channel ((s.write v).call (.channel x 2 false)).obj rho 1 false).1 = .ok out ∧
      out.mat (e ^ b) (e ^ b) = new (rho.mat (d ^ a) (d ^ a))) := by
  intro new old
  have hq : ∃ o, QChan.init false ops a b d e orth = .ok o ∧ s = ⟨o, true, false⟩ := by
    unfold Shared.init at h
    rcases hq : QChan.init false ops a b d e orth with y | o
    · simp only [hq] at h; cases h
    · simp only [hq] at h; cases h
      exact ⟨o, rfl, rfl⟩
  obtain ⟨o, ho, rfl⟩ := hq
  obtain ⟨h1, h2, h3, h4, h5, h6, h7, h8, h9, h10, h11, h12⟩ := qchanInit_ok ho
  have hnth : o.nth = ops := by rw [h1.nth, h2]; rfl
  have hw : (Shared.write ⟨o, true, false⟩ v).obj = { o with kraus := newOps ops v } := by
    unfold Shared.write newOps
    simp [h2]
  rw [hw]
  set o' : KrausObj := { o with kraus := newOps ops v } with ho'
  have c1 : o'.curN = 1 := h1.cur
  have s1 : o'.sparse = false := h3
  have n1 : o'.nth = ops := hnth
  obtain ⟨u1, u2, u3, u4, u5⟩ := update_two o' s1 c1
  refine ⟨?_, ?_, ?_⟩
  · obtain ⟨out, e1, -, -, e4⟩ := channel_of_nth o' s1 ops n1 rho (e ^ b) (d ^ a) h11 h10 hr hc
    refine ⟨out, ?_, e4⟩
    unfold QChan.channel QChan.sync
    rw [if_neg (by rw [c1]; simp)]
    exact e1
  · obtain ⟨out, e1, -, -, e4⟩ := channel_of_nth (o'.update 2).2 u4 ((newOps ops v).kron ops) (by rw [u2, n1])
      (rho.kron sigma) (e ^ b * e ^ b) (d ^ a * d ^ a) (by show ops.rows * ops.rows = _; rw [h11])
      (by show ops.cols * ops.cols = _; rw [h10]) (by rw [Arr.rows_kron, hr, hr']) (by rw [Arr.cols_kron, hc, hc'])
    refine ⟨out, ?_, ?_⟩
    · unfold QChan.channel QChan.sync
      rw [if_pos (by rw [c1]; simp)]
      generalize o'.update 2 = p at u1 e1
      obtain ⟨p1, p2⟩ := p
      simp only at u1 e1
      subst u1
      exact e1
    · have hlen : ((newOps ops v).kron ops).len = ops.len * ops.len := rfl
      rw [e4, hlen, kron_ops (newOps ops v) ops ops.len ops.len (e ^ b) (e ^ b) (d ^ a) (d ^ a) rfl h11 h10,
        arr_kron_mat rho sigma _ _ _ _ hr' hc', Spec.applyKraus_kron]
  · have ha : ((Shared.write ⟨o, true, false⟩ v).call (.channel x 2 false)).obj = (o'.update 2).2 := by
      unfold Shared.call
      simp only [hw, QChan.Call.after]
      unfold QChan.channel QChan.sync
      rw [if_pos (by rw [c1]; simp)]
      generalize o'.update 2 = p
      obtain ⟨p1, p2⟩ := p
      cases p1 <;> rfl
    rw [ha]
    obtain ⟨w1, w2, w3, w4, w5⟩ := update_one (o'.update 2).2 u4 (by rw [u5]; decide)
    obtain ⟨out, e1, -, -, e4⟩ := channel_of_nth ((o'.update 2).2.update 1).2 w4 (newOps ops v) (by rw [w2, u3]) rho
      (e ^ b) (d ^ a) h11 h10 hr hc
    refine ⟨out, ?_, e4⟩
    unfold QChan.channel QChan.sync
    rw [if_pos (by rw [u5]; decide)]
    generalize (o'.update 2).2.update 1 = p at w1 e1
    obtain ⟨p1, p2⟩ := p
    simp only at w1 e1
    subst w1
    exact e1

/-- **C71 refuted, the stale exchange**.  A dense channel built from an array has been used for two copies and again for
one, and the caller then changes the array.  `channel` applies the new operators while `entropy_exchange` still answers
for the old ones, so the two no longer belong to one channel. -/
theorem C71_exchange_refuted (s : Shared) (h : Shared.init false (.array ops) a b d e [] = .ok s) (v : ℕ → ℕ → ℕ → ℂ)
    (x y : Arr ℂ) (rho : Arr ℂ) (hr : rho.rows = d ^ a) (hc : rho.cols = d ^ a) :
    let t := ((s.call (.channel x 2 false)).call (.channel y 1 false)).write v
    (∃ out, (QChan.channel t.obj rho 1 false).1 = .ok out ∧ out.mat (e ^ b) (e ^ b) =
      Spec.applyKraus ((newOps ops v).ops ops.len (e ^ b) (d ^ a)) (rho.mat (d ^ a) (d ^ a))) ∧
    (∃ W, (QChan.entropyExchange t.obj rho 1).1 = .ok [W] ∧ W.mat ops.len ops.len =
      Spec.entropyExchange (ops.ops ops.len (e ^ b) (d ^ a)) (rho.mat (d ^ a) (d ^ a))) := by
  intro t
  have hq : ∃ o, QChan.init false ops a b d e [] = .ok o ∧ s = ⟨o, true, false⟩ := by
    unfold Shared.init at h
    rcases hq : QChan.init false ops a b d e [] with y | o
    · simp only [hq] at h; cases h
    · simp only [hq] at h; cases h
      exact ⟨o, rfl, rfl⟩
  obtain ⟨o, ho, rfl⟩ := hq
  obtain ⟨h1, h2, h3, h4, h5, h6, h7, h8, h9, h10, h11, h12⟩ := qchanInit_ok ho
  have hsafe : ∀ c : List QChan.Call, (∀ y ∈ c, 1 ≤ y.uses) → Spec.SafeUses o.sparse (1 :: c.map QChan.Call.uses) := by
    intro c hc
    refine ⟨?_, ?_⟩
    · simpa using hc
    · intro hs
      rw [h3] at hs
      cases hs
  obtain ⟨m2, -, hm2, k2, -⟩ := history_holds o [.channel x 2 false] h1 (hsafe _ (by simp [QChan.Call.uses]))
  obtain ⟨m1, -, hm1, k1, st⟩ := history_holds o [.channel x 2 false, .channel y 1 false] h1
    (hsafe _ (by simp [QChan.Call.uses]))
  simp only [List.map_cons, List.map_nil, List.getLast_cons_cons, List.getLast_singleton, QChan.Call.uses] at hm1 hm2
  subst hm1 hm2
  set p := QChan.history o [.channel x 2 false, .channel y 1 false] with hp
  obtain ⟨t1, t2, t3, t4, t5, t6, t7⟩ := st
  have hk : p.kraus = ops := by simp_all
  have hnth : p.nth = ops := by rw [k1.nth, hk]; rfl
  have hsp : p.sparse = false := by simp_all
  have horth : p.orth = [] := by simp_all
  have ht : t.obj = { p with kraus := newOps ops v, nth := newOps ops v } := by
    have c2 : ((QChan.Call.channel x 2 false).after o).curN = 2 := k2.cur
    have e1 : ((Shared.call (Shared.call ⟨o, true, false⟩ (.channel x 2 false)) (.channel y 1 false))) =
        ⟨p, true, true⟩ := by
      unfold Shared.call
      congr 1
      simp [Shared.sharedAt, QChan.Call.uses, c2]
    show (Shared.write (Shared.call (Shared.call ⟨o, true, false⟩ (.channel x 2 false)) (.channel y 1 false)) v).obj = _
    rw [e1]
    unfold Shared.write newOps
    simp [hk, hnth]
  rw [ht]
  set q : KrausObj := { p with kraus := newOps ops v, nth := newOps ops v } with hqdef
  constructor
  · obtain ⟨out, e1, -, -, e4⟩ := channel_of_nth q hsp (newOps ops v) rfl rho (e ^ b) (d ^ a) h11 h10 hr hc
    refine ⟨out, ?_, e4⟩
    unfold QChan.channel QChan.sync
    rw [if_neg (by show ¬ (_ ≠ p.curN); rw [k1.cur]; simp)]
    exact e1
  · obtain ⟨W, e1, -, -, e4⟩ := exchange_holds le_rfl k1 (Or.inr horth) rho (by rw [hk, h10, hr, pow_one])
      (by rw [hk, h10, hc, pow_one])
    refine ⟨W, ?_, ?_⟩
    · unfold QChan.entropyExchange QChan.sync
      rw [if_neg (by show ¬ (_ ≠ p.curN); rw [k1.cur]; simp)]
      rw [← e1]
      show q.entropyExchange rho 1 = _
      unfold KrausObj.entropyExchange
      simp [hqdef, hsp, horth]
    · rw [tensorPow_one_eq, hk, h10, h11, pow_one (d ^ a), pow_one (e ^ b), pow_one ops.len] at e4
      exact e4

/-! ### Witness -/

/-- The identity channel of one qubit as an array. -/
def wireOps : Arr3 ℂ := ⟨1, 2, 2, fun _ i j => if i = j then 1 else 0⟩

/-- The bit flipped the caller writes into it. -/
def flipped : ℕ → ℕ → ℕ → ℂ := fun _ i j => if i = j then 0 else 1

/-- `|0⟩⟨0|`. -/
def ketZero : Arr ℂ := ⟨2, 2, fun i j => if i = 0 ∧ j = 0 then 1 else 0⟩

theorem wireOps_ok : ∃ o, QChan.init false wireOps 1 1 2 2 [] = .ok o := by
  apply init_exact
  · decide
  · rfl
  · rfl
  · unfold Spec.TracePreserving
    change ∑ i : Fin 1, (wireOps.ops 1 2 2 i)ᴴ * wireOps.ops 1 2 2 i = (1 : Matrix (Fin 2) (Fin 2) ℂ)
    ext i j
    fin_cases i <;> fin_cases j <;> simp [wireOps, Arr3.ops, Matrix.mul_apply]

/-- The hypotheses of `C71_array_refuted` and `C71_exchange_refuted` hold of the identity channel given as an array.  After
the caller turns the array into a bit flipped, two uses turn `|00⟩⟨00|` into `|10⟩⟨10|`. -/
theorem C71_flip_refuted : ∃ s, Shared.init false (.array wireOps) 1 1 2 2 [] = .ok s ∧
    (∃ out, (QChan.channel s.obj (ketZero.kron ketZero) 2 false).1 = .ok out ∧ out.get 0 0 = 1) ∧
    ∃ out, (QChan.channel (s.write flipped).obj (ketZero.kron ketZero) 2 false).1 = .ok out ∧ out.get 0 0 = 0 ∧
      out.get 2 2 = 1 := by
  obtain ⟨o, ho⟩ := wireOps_ok
  have hs : Shared.init false (.array wireOps) 1 1 2 2 [] = .ok ⟨o, true, false⟩ := by
    unfold Shared.init
    simp only [ho]
    rfl
  refine ⟨_, hs, ?_, ?_⟩
  · obtain ⟨-, ⟨out, e1, e2⟩, -⟩ := C71_array_refuted ⟨o, true, false⟩ hs wireOps.get ketZero ketZero rfl rfl rfl rfl
      ketZero
    have hw : Shared.write ⟨o, true, false⟩ wireOps.get = ⟨o, true, false⟩ := by
      unfold Shared.write
      have : o.kraus = wireOps := (qchanInit_ok ho).2.1
      rcases o with ⟨⟩
      simp_all
    rw [hw] at e1
    refine ⟨out, e1, ?_⟩
    have := congrFun (congrFun e2 (⟨0, by decide⟩ : Fin (2 ^ 1 * 2 ^ 1))) (⟨0, by decide⟩ : Fin (2 ^ 1 * 2 ^ 1))
    rw [show out.get 0 0 = out.mat (2 ^ 1 * 2 ^ 1) (2 ^ 1 * 2 ^ 1) ⟨0, by decide⟩ ⟨0, by decide⟩ from rfl, this]
    show Spec.applyKraus ((newOps wireOps wireOps.get).ops 1 2 2) (ketZero.mat 2 2) 0 0 *
      Spec.applyKraus (wireOps.ops 1 2 2) (ketZero.mat 2 2) 0 0 = 1
    simp [Spec.applyKraus, newOps, wireOps, ketZero, Arr3.ops, Arr.mat, Matrix.mul_apply, Fin.sum_univ_two]
  · obtain ⟨-, ⟨out, e1, e2⟩, -⟩ := C71_array_refuted ⟨o, true, false⟩ hs flipped ketZero ketZero rfl rfl rfl rfl
      ketZero
    refine ⟨out, e1, ?_, ?_⟩
    · have := congrFun (congrFun e2 (⟨0, by decide⟩ : Fin (2 ^ 1 * 2 ^ 1))) (⟨0, by decide⟩ : Fin (2 ^ 1 * 2 ^ 1))
      rw [show out.get 0 0 = out.mat (2 ^ 1 * 2 ^ 1) (2 ^ 1 * 2 ^ 1) ⟨0, by decide⟩ ⟨0, by decide⟩ from rfl, this]
      show Spec.applyKraus ((newOps wireOps flipped).ops 1 2 2) (ketZero.mat 2 2) 0 0 *
        Spec.applyKraus (wireOps.ops 1 2 2) (ketZero.mat 2 2) 0 0 = 0
      simp [Spec.applyKraus, newOps, wireOps, ketZero, flipped, Arr3.ops, Arr.mat, Matrix.mul_apply, Fin.sum_univ_two]
    · have := congrFun (congrFun e2 (⟨2, by decide⟩ : Fin (2 ^ 1 * 2 ^ 1))) (⟨2, by decide⟩ : Fin (2 ^ 1 * 2 ^ 1))
      rw [show out.get 2 2 = out.mat (2 ^ 1 * 2 ^ 1) (2 ^ 1 * 2 ^ 1) ⟨2, by decide⟩ ⟨2, by decide⟩ from rfl, this]
      show Spec.applyKraus ((newOps wireOps flipped).ops 1 2 2) (ketZero.mat 2 2) 1 1 *
        Spec.applyKraus (wireOps.ops 1 2 2) (ketZero.mat 2 2) 0 0 = 1
      simp [Spec.applyKraus, newOps, wireOps, ketZero, flipped, Arr3.ops, Arr.mat, Matrix.mul_apply, Fin.sum_univ_two]

/-- The hypotheses of `C71_copied_partial` hold of a sparse dephasing channel given as an array, and its conclusion covers a
write between two calls. -/
example : ∃ s, Shared.init true (.array dephOps) 1 1 2 2 [] = .ok s ∧
    ([.call (.update 3), .write flipped, .call (.update 2)].foldl Shared.after s).obj =
      QChan.history s.obj [.update 3, .update 2] := by
  obtain ⟨o, ho⟩ := deph_ok true []
  have hs : Shared.init true (.array dephOps) 1 1 2 2 [] = .ok ⟨o, false, false⟩ := by
    unfold Shared.init
    simp only [ho]
    rfl
  exact ⟨_, hs, C71_copied_partial true _ 1 1 2 2 [] _ hs (Or.inl rfl) _⟩

end PyQ
