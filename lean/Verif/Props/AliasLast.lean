import Verif.Props.AliasOne
import Verif.Props.Optimize

/-!
# C71: which operators a dense channel built from an array applies after it has gone back to one use
-/

namespace PyQ

open Matrix

namespace Spec

/-- The entries of the caller's array after the events. -/
def lastWritten (v : ℕ → ℕ → ℕ → ℂ) : List Shared.Event → ℕ → ℕ → ℕ → ℂ
  | [] => v
  | .call _ :: es => lastWritten v es
  | .write w :: es => lastWritten w es

end Spec

/-- After a call the object is set to the number of uses asked for and has kept the operators it holds. -/
theorem after_call (o : KrausObj) (c : QChan.Call) :
    (c.after o).kraus = o.kraus ∧ (c.after o).sparse = o.sparse ∧ (c.after o).curN = c.uses := by
  have hst := history_static o [c]
  refine ⟨hst.1, hst.2.1, ?_⟩
  rcases call_after o c with h | h
  · rw [h]; exact QChan.sync_curN (r := (QChan.sync o c.uses).1) rfl
  · rw [h]
    unfold KrausObj.update
    simp only
    rcases ({ o.retensor c.uses with curN := c.uses } : KrausObj).exchange with x | x <;> rfl

/-- What holds after any events: the operators held are the caller's array. -/
theorem events_kraus (ops : Arr3 ℂ) (events : List Shared.Event) (s : Shared) (v : ℕ → ℕ → ℕ → ℂ)
    (hk : s.krausShared = true) (hs : s.obj.sparse = false) (ho : s.obj.kraus = newOps ops v) :
    (events.foldl Shared.after s).krausShared = true ∧ (events.foldl Shared.after s).obj.sparse = false ∧
      (events.foldl Shared.after s).obj.kraus = newOps ops (Spec.lastWritten v events) := by
  induction events generalizing s v with
  | nil => exact ⟨hk, hs, ho⟩
  | cons ev es ih =>
    rw [List.foldl_cons]
    cases ev with
    | call c =>
      obtain ⟨g1, g2, -⟩ := after_call s.obj c
      exact ih (s.after (.call c)) v hk (g2.trans hs) (g1.trans ho)
    | write w =>
      have hw : s.after (.write w) = s.write w := rfl
      rw [hw]
      refine ih _ w ?_ ?_ ?_
      all_goals unfold Shared.write; simp only [hk, if_true]
      · exact hs
      · rw [ho]; rfl

/-- The number of uses an object is set to is that of the last call. -/
theorem events_curN (events : List Shared.Event) (s : Shared) :
    (events.foldl Shared.after s).obj.curN = ((Shared.calls events).map QChan.Call.uses).getLast?.getD s.obj.curN := by
  induction events generalizing s with
  | nil => rfl
  | cons ev es ih =>
    rw [List.foldl_cons, ih]
    cases ev with
    | call c =>
      show _ = ((c :: Shared.calls es).map QChan.Call.uses).getLast?.getD _
      have : (s.after (.call c)).obj.curN = c.uses := (after_call s.obj c).2.2
      rw [this, List.map_cons, List.getLast?_cons]
      rfl
    | write w =>
      have : (s.after (.write w)).obj.curN = s.obj.curN := by
        show (s.write w).obj.curN = _
        unfold Shared.write
        split <;> rfl
      rw [this]
      rfl

variable {ops : Arr3 ℂ} {a b d e : ℕ} {orth : List ℕ}

/-- **C71 refuted, in general**.  A dense channel built from an array has, after any events, been asked for several uses and then for
one.  From then on, as long as it is only asked for one use, it applies the operators that are in the caller's array, whatever was
written there and whenever. -/
theorem C71_returned_refuted (s : Shared) (h : Shared.init false (.array ops) a b d e orth = .ok s)
    (es es' : List Shared.Event) (c : QChan.Call) (hmany : ∃ m, 1 < m ∧ ((Shared.calls es).map QChan.Call.uses).getLast? = some m)
    (hc1 : c.uses = 1) (hone : ∀ c' ∈ Shared.calls es', c'.uses = 1)
    (rho : Arr ℂ) (hr : rho.rows = d ^ a) (hc : rho.cols = d ^ a) :
    ∃ out, (QChan.channel ((es ++ .call c :: es').foldl Shared.after s).obj rho 1 false).1 = .ok out ∧
      out.rows = e ^ b ∧ out.cols = e ^ b ∧ out.mat (e ^ b) (e ^ b) =
        Spec.applyKraus ((newOps ops (Spec.lastWritten ops.get (es ++ .call c :: es'))).ops ops.len (e ^ b) (d ^ a))
          (rho.mat (d ^ a) (d ^ a)) := by
  have hq : ∃ o, QChan.init false ops a b d e orth = .ok o ∧ s = ⟨o, true, false⟩ := by
    unfold Shared.init at h
    rcases hq : QChan.init false ops a b d e orth with y | o
    · simp only [hq] at h; cases h
    · simp only [hq] at h; cases h
      exact ⟨o, rfl, rfl⟩
  obtain ⟨o, ho, rfl⟩ := hq
  obtain ⟨h1, h2, h3, h4, h5, h6, h7, h8, h9, h10, h11, h12⟩ := qchanInit_ok ho
  obtain ⟨m, hm, hmm⟩ := hmany
  obtain ⟨k1, k2, k3⟩ := events_kraus ops es ⟨o, true, false⟩ ops.get rfl h3 h2
  have k4 := events_curN es ⟨o, true, false⟩
  rw [hmm, Option.getD_some] at k4
  set t := es.foldl Shared.after ⟨o, true, false⟩ with ht
  have hafter : c.after t.obj = (t.obj.update 1).2 := by
    rcases call_after t.obj c with hh | hh
    · rw [hh, hc1]
      unfold QChan.sync
      rw [if_pos (by omega)]
    · rw [hh, hc1]
  obtain ⟨-, u2, u3, u4, u5⟩ := update_one t.obj k2 (by omega)
  have key : ∀ (es' : List Shared.Event) (s : Shared) (v : ℕ → ℕ → ℕ → ℂ), (∀ c' ∈ Shared.calls es', c'.uses = 1) →
      s.krausShared = true → s.nthShared = true → s.obj.curN = 1 → s.obj.nth = newOps ops v →
      (es'.foldl Shared.after s).obj.curN = 1 ∧ (es'.foldl Shared.after s).obj.nth = newOps ops (Spec.lastWritten v es') := by
    intro es'
    induction es' with
    | nil => intro s v _ _ _ q1 q2; exact ⟨q1, q2⟩
    | cons ev es' ih =>
      intro s v hone q0 q1 q2 q3
      rw [List.foldl_cons]
      cases ev with
      | call c' =>
        have hu := hone c' (by simp [Shared.calls])
        obtain ⟨g1, g2, -⟩ := after_one s.obj q2 c' hu
        refine ih (s.after (.call c')) v (fun c'' hc'' => hone c'' (by simp [Shared.calls, hc''])) q0 ?_ g1 (g2.trans q3)
        show s.sharedAt c'.uses = true
        unfold Shared.sharedAt
        rw [hu, q2, if_neg (by omega), if_neg (by omega), q1]
      | write w =>
        have hw : s.after (.write w) = s.write w := rfl
        rw [hw]
        refine ih _ w hone ?_ ?_ ?_ ?_
        all_goals unfold Shared.write; simp only [q0, if_true]
        · exact q1
        · exact q2
        · rw [q1, q3]; rfl
  have happ : ∀ (es es' : List Shared.Event) v, Spec.lastWritten v (es ++ .call c :: es') = Spec.lastWritten (Spec.lastWritten v es) es' := by
    intro es
    induction es with
    | nil => intro es' v; rfl
    | cons ev es ih =>
      intro es' v
      cases ev with
      | call c' => exact ih es' v
      | write w => exact ih es' w
  rw [List.foldl_append, List.foldl_cons, ← ht, happ]
  have hsh : (t.after (.call c)).nthShared = true := by
    show t.sharedAt c.uses = true
    unfold Shared.sharedAt
    rw [hc1, if_neg (by omega), if_pos (by omega)]
    rfl
  have hobj : (t.after (.call c)).obj = (t.obj.update 1).2 := hafter
  obtain ⟨w1, w2⟩ := key es' (t.after (.call c)) _ hone k1 hsh (by rw [hobj, u5]) (by rw [hobj, u2, k3])
  obtain ⟨-, w3, -⟩ := events_kraus ops es' (t.after (.call c)) _ k1 (by rw [hobj, u4]) (by rw [hobj, u3, k3])
  obtain ⟨out, e1, e2, e3, e4⟩ := channel_of_nth _ w3 _ w2 rho (e ^ b) (d ^ a) h11 h10 hr hc
  refine ⟨out, ?_, e2, e3, e4⟩
  unfold QChan.channel QChan.sync
  rw [if_neg (by rw [w1]; simp)]
  exact e1

/-- The identity channel as an array: two uses, one use twice, a write of bit flips and one use.  The hypotheses are met and the
channel flips the bit, although the object was built from the identity. -/
example : ∃ s out, Shared.init false (.array wireOps) 1 1 2 2 [] = .ok s ∧
    (QChan.channel (([.call (.update 2)] ++ .call (.channel ketZero 1 false) :: [.call (.update 1), .write flipped] :
      List Shared.Event).foldl Shared.after s).obj ketZero 1 false).1 = .ok out ∧ out.get 0 0 = 0 := by
  obtain ⟨o, ho⟩ := wireOps_ok
  have hs : Shared.init false (.array wireOps) 1 1 2 2 [] = .ok ⟨o, true, false⟩ := by
    unfold Shared.init
    simp only [ho]
    rfl
  obtain ⟨out, h1, -, -, h4⟩ := C71_returned_refuted _ hs [.call (.update 2)] [.call (.update 1), .write flipped]
    (.channel ketZero 1 false) ⟨2, by decide, rfl⟩ rfl (by simp [Shared.calls, QChan.Call.uses]) ketZero rfl rfl
  refine ⟨_, out, hs, h1, ?_⟩
  have := congrFun (congrFun h4 0) 0
  refine Eq.trans rfl (this.trans ?_)
  change (∑ k : Fin 1, (newOps wireOps flipped).ops 1 2 2 k * ketZero.mat 2 2 * ((newOps wireOps flipped).ops 1 2 2 k)ᴴ)
    (0 : Fin 2) (0 : Fin 2) = 0
  simp [wireOps, newOps, flipped, ketZero, Arr3.ops, Arr.mat, Matrix.mul_apply, Fin.sum_univ_two]

end PyQ
