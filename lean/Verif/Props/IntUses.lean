import Verif.Lemmas.IntUses
import Verif.Props.Kraus

/-!
# C130: asking for a number of uses that makes no sense

`channel(rho, n)`, `entropy_exchange(rho, n)` and the functions built on them do not check `n`.
-/

namespace PyQ

/-- How many copies of the channel an object applies after it was asked, in this order, for the numbers of uses `uses`,
starting from one: the number asked for last if the numbers never went down; otherwise look at the last time they went down,
to `m`: the number asked for last if `m` is positive, and `2 - m` more than that if it is not. -/
def Spec.CopiesApplied (uses : List ℤ) (f : ℤ) : Prop :=
  (((1 : ℤ) :: uses).Pairwise (· ≤ ·) ∧ f = ((1 : ℤ) :: uses).getLast (by simp)) ∨
    ∃ pre m post, uses = pre ++ m :: post ∧ m < ((1 : ℤ) :: pre).getLast (by simp) ∧ (m :: post).Pairwise (· ≤ ·) ∧
      f = (m :: post).getLast (by simp) + (if 1 ≤ m then 0 else 2 - m)

variable {sp : Bool} {ops : Arr3 ℂ} {a b d e : ℕ} {orth : List ℕ} {o : KrausObj}

theorem last_drop (pre post : List ℤ) (m : ℤ) :
    ((1 : ℤ) :: (pre ++ m :: post)).getLast (by simp) = (m :: post).getLast (by simp) := by
  rw [List.getLast_cons (by simp), List.getLast_append_of_ne_nil _ (by simp)]

theorem copies_of {uses : List ℤ} {f : ℤ} (h : Spec.CopiesApplied uses f) :
    f = ((1 : ℤ) :: uses).getLast (by simp) + excess 1 0 uses := by
  rcases h with ⟨h, rfl⟩ | ⟨pre, m, post, rfl, hd, hp, rfl⟩
  · rw [excess_mono _ _ _ h, add_zero]
  · rw [excess_drop pre post m hd hp, last_drop]

theorem pairwise_snoc (c n : ℤ) (l : List ℤ) (h : (c :: l).Pairwise (· ≤ ·)) (hn : (c :: l).getLast (by simp) ≤ n) :
    (c :: (l ++ [n])).Pairwise (· ≤ ·) := by
  rw [← List.cons_append, List.pairwise_append]
  refine ⟨h, by simp, ?_⟩
  intro y hy z hz
  rw [List.mem_singleton] at hz
  subst hz
  refine le_trans ?_ hn
  rw [← List.dropLast_append_getLast (l := c :: l) (by simp)] at h hy
  rcases List.mem_append.mp hy with hy | hy
  · exact (List.pairwise_append.mp h).2.2 y hy _ (by simp)
  · rw [List.mem_singleton] at hy
    exact hy.le

/-- The rule gives exactly one number for every sequence of calls. -/
theorem C130_rule (uses : List ℤ) : ∃! f, Spec.CopiesApplied uses f := by
  refine existsUnique_of_exists_of_unique ?_ fun f g hf hg => (copies_of hf).trans (copies_of hg).symm
  induction uses using List.reverseRecOn with
  | nil => exact ⟨1, Or.inl ⟨by simp, rfl⟩⟩
  | append_singleton l n ih =>
    by_cases hd : n < ((1 : ℤ) :: l).getLast (by simp)
    · exact ⟨_, Or.inr ⟨l, n, [], rfl, hd, by simp, rfl⟩⟩
    · obtain ⟨f, ⟨hp, -⟩ | ⟨pre, m, post, rfl, hm, hp, -⟩⟩ := ih
      · exact ⟨_, Or.inl ⟨pairwise_snoc 1 n l hp (not_lt.mp hd), rfl⟩⟩
      · refine ⟨_, Or.inr ⟨pre, m, post ++ [n], by simp, hm, pairwise_snoc m n post hp ?_, rfl⟩⟩
        rw [last_drop] at hd
        exact not_lt.mp hd

/-- The state in which the operators are applied. -/
theorem reach_int (h : QChan.init sp ops a b d e orth = .ok o) (calls : List KrausInt.Call) (n f : ℤ)
    (hf : Spec.CopiesApplied (calls.map KrausInt.Call.uses ++ [n]) f) :
    let s := ((KrausInt.start o).history calls).sync n
    1 ≤ f ∧ s.2.obj.kraus = ops ∧ s.2.obj.sparse = sp ∧ s.2.obj.nth = powArr ops f.toNat ∧
      (sp = false → s.1 = .ok () ∧ Holds { s.2.obj with curN := f.toNat } f.toNat) := by
  obtain ⟨h1, h2, h3, -⟩ := qchanInit_ok h
  obtain ⟨g1, g2, g3⟩ := KrausInt.history_holds (start_holds h1) calls
  obtain ⟨k1, k2, k3, k4⟩ := KrausInt.sync_holds g1 n
  have hx := copies_of hf
  rw [excess_append, last_drop] at hx
  rw [g2] at k1
  have hfx := k1.pos
  have hnth := k1.nth
  rw [k2] at hfx hnth
  simp only [List.getLast_singleton] at hx
  change f = n + excess (((KrausInt.start o).cur :: calls.map KrausInt.Call.uses).getLast (by simp))
    (excess (KrausInt.start o).cur 0 (calls.map KrausInt.Call.uses)) [n] at hx
  rw [← hx] at hfx hnth
  have hk := (g3.trans k3).1.trans h2
  have hs := (g3.trans k3).2.1.trans h3
  rw [hk] at hnth
  refine ⟨hfx, hk, hs, hnth, ?_⟩
  intro hsp
  have := k1.holds (hs.trans hsp)
  rw [k2, ← hx] at this
  exact ⟨k4 (g3.2.1.trans (h3.trans hsp)), this⟩

/-- C130, exactly.  For every dense channel and every sequence of calls with any integers, `channel(rho, n)` applies the
number `f` of copies that the rule gives, if `rho` fits that number. -/
theorem C130_exact (h : QChan.init false ops a b d e orth = .ok o) (calls : List KrausInt.Call) (n f : ℤ)
    (hf : Spec.CopiesApplied (calls.map KrausInt.Call.uses ++ [n]) f) (rho : Arr ℂ)
    (hr : rho.rows = (d ^ a) ^ f.toNat) (hc : rho.cols = (d ^ a) ^ f.toNat) :
    ∃ out, (((KrausInt.start o).history calls).channel rho n false).1 = .ok out ∧
      out.rows = (e ^ b) ^ f.toNat ∧ out.cols = (e ^ b) ^ f.toNat ∧
      out.mat ((e ^ b) ^ f.toNat) ((e ^ b) ^ f.toNat) =
        Spec.applyKraus (Spec.tensorPow (ops.ops ops.len (e ^ b) (d ^ a)) f.toNat)
          (rho.mat ((d ^ a) ^ f.toNat) ((d ^ a) ^ f.toNat)) := by
  obtain ⟨h1, h2, h3, h4, h5⟩ := reach_int h calls n f hf
  obtain ⟨-, -, -, -, -, -, -, -, -, q1, q2, -⟩ := qchanInit_ok h
  obtain ⟨k1, k2⟩ := h5 rfl
  unfold KrausInt.channel
  generalize hS : ((KrausInt.start o).history calls).sync n = S at *
  obtain ⟨r, s⟩ := S
  simp only at k1 k2 h2
  subst k1
  obtain ⟨out, e1, e2, e3, e4⟩ := channel_holds (by omega) k2 rho (by simp only [h2, q1, hr]) (by simp only [h2, q1, hc])
  dsimp only at e1 e2 e3 e4
  rw [h2] at e2 e3 e4
  rw [q2] at e2 e3 e4
  rw [q1] at e4
  exact ⟨out, e1, e2, e3, e4⟩

/-- C130, exactly: a matrix with another number of rows is refused. -/
theorem C130_exact_error (h : QChan.init false ops a b d e orth = .ok o) (calls : List KrausInt.Call) (n f : ℤ)
    (hf : Spec.CopiesApplied (calls.map KrausInt.Call.uses ++ [n]) f) (rho : Arr ℂ)
    (hr : rho.rows ≠ (d ^ a) ^ f.toNat) :
    (((KrausInt.start o).history calls).channel rho n false).1 = .error .value := by
  obtain ⟨h1, h2, h3, h4, h5⟩ := reach_int h calls n f hf
  obtain ⟨-, -, -, -, -, -, -, -, -, q1, q2, -⟩ := qchanInit_ok h
  obtain ⟨k1, k2⟩ := h5 rfl
  unfold KrausInt.channel
  generalize hS : ((KrausInt.start o).history calls).sync n = S at *
  obtain ⟨r, s⟩ := S
  simp only at k1 k2 h2 h4
  subst k1
  obtain ⟨-, -, d3⟩ := powArr_dims ops (n := f.toNat) (by omega)
  simp only [KrausObj.channel]
  have hm : Arr3.matmul2 (s.obj.factors false).1 rho = .error .value := by
    unfold Arr3.matmul2
    rw [if_neg]
    change ¬ s.obj.nth.cols = rho.rows
    rw [h4, d3, q1]
    exact fun hx => hr hx.symm
  rw [hm]
  rfl

/-- C130 is true as long as nobody asks for zero or fewer uses: the last number decides. -/
theorem C130_positive_partial (uses : List ℤ) (n : ℤ) (hp : ∀ m ∈ uses, 1 ≤ m) (hn : 1 ≤ n) :
    Spec.CopiesApplied (uses ++ [n]) n := by
  obtain ⟨f, hf, -⟩ := C130_rule (uses ++ [n])
  have : excess 1 0 (uses ++ [n]) = 0 := by
    by_contra h
    obtain ⟨pre, m, post, hl, hm, -⟩ := (excess_ne_zero_iff _).mp h
    have : m ∈ uses ++ [n] := by rw [hl]; simp
    rcases List.mem_append.mp this with h' | h'
    · have := hp m h'; omega
    · rw [List.mem_singleton] at h'; omega
  have h2 := copies_of hf
  rw [this, add_zero, last_drop] at h2
  simp only [List.getLast_singleton] at h2
  rwa [h2] at hf

/-- C130 in general: a dense channel serves a valid request exactly if it was never asked for zero or fewer uses, or if the
number of uses has gone down since then. -/
theorem C130_iff (h : QChan.init false ops a b d e orth = .ok o) (hd : 2 ≤ d ^ a) (calls : List KrausInt.Call)
    (n : ℕ) (hn : 1 ≤ n) (rho : Arr ℂ) (hr : rho.rows = (d ^ a) ^ n) (hc : rho.cols = (d ^ a) ^ n) :
    (∃ out, (((KrausInt.start o).history calls).channel rho n false).1 = .ok out) ↔
      ¬ ∃ pre m post, calls.map KrausInt.Call.uses ++ [(n : ℤ)] = pre ++ m :: post ∧ m ≤ 0 ∧
        (m :: post).Pairwise (· ≤ ·) := by
  obtain ⟨f, hf, -⟩ := C130_rule (calls.map KrausInt.Call.uses ++ [(n : ℤ)])
  have h2 := copies_of hf
  rw [last_drop] at h2
  simp only [List.getLast_singleton] at h2
  rw [← excess_ne_zero_iff, not_not]
  have hnn := excess_nonneg 1 0 (calls.map KrausInt.Call.uses ++ [(n : ℤ)]) le_rfl
  constructor
  · rintro ⟨out, hout⟩
    by_contra hne
    rw [C130_exact_error h calls n f hf rho ?_] at hout
    · cases hout
    · rw [hr]
      intro hx
      have := Nat.pow_right_injective hd hx
      omega
  · intro h0
    have : f.toNat = n := by omega
    obtain ⟨out, hout, -⟩ := C130_exact h calls n f hf rho (by rw [this, hr]) (by rw [this, hc])
    exact ⟨out, hout⟩

/-- C130 is false of the code: after a request for zero or fewer uses, whatever happened before and whether or not that
request raised, every valid request that comes next raises `ValueError`. -/
theorem C130_refuted (h : QChan.init false ops a b d e orth = .ok o) (hd : 2 ≤ d ^ a) (calls : List KrausInt.Call)
    (m : ℤ) (hm : m ≤ 0) (n : ℕ) (hn : 1 ≤ n) (rho : Arr ℂ) (hr : rho.rows = (d ^ a) ^ n) :
    (((KrausInt.start o).history (calls ++ [KrausInt.Call.use m])).channel rho n false).1 = .error .value := by
  obtain ⟨f, hf, -⟩ := C130_rule ((calls ++ [KrausInt.Call.use m]).map KrausInt.Call.uses ++ [(n : ℤ)])
  have h2 := copies_of hf
  rw [last_drop] at h2
  simp only [List.getLast_singleton] at h2
  have hne : excess 1 0 ((calls ++ [KrausInt.Call.use m]).map KrausInt.Call.uses ++ [(n : ℤ)]) ≠ 0 :=
    (excess_ne_zero_iff _).mpr ⟨calls.map KrausInt.Call.uses, m, [(n : ℤ)], by simp [KrausInt.Call.uses], hm,
      by simp; omega⟩
  have hnn := excess_nonneg 1 0 ((calls ++ [KrausInt.Call.use m]).map KrausInt.Call.uses ++ [(n : ℤ)]) le_rfl
  refine C130_exact_error h _ n f hf rho ?_
  rw [hr]
  intro hx
  have := Nat.pow_right_injective hd hx
  omega

/-- C130: and a first request for zero or fewer uses is answered with two uses of the channel. -/
theorem C130_silent (h : QChan.init false ops a b d e orth = .ok o) (m : ℤ) (hm : m ≤ 0) (rho : Arr ℂ)
    (hr : rho.rows = (d ^ a) ^ 2) (hc : rho.cols = (d ^ a) ^ 2) :
    ∃ out, ((KrausInt.start o).channel rho m false).1 = .ok out ∧
      out.mat ((e ^ b) ^ 2) ((e ^ b) ^ 2) =
        Spec.applyKraus (Spec.tensorPow (ops.ops ops.len (e ^ b) (d ^ a)) 2)
          (rho.mat ((d ^ a) ^ 2) ((d ^ a) ^ 2)) := by
  have hf : Spec.CopiesApplied (([] : List KrausInt.Call).map KrausInt.Call.uses ++ [m]) 2 :=
    Or.inr ⟨[], m, [], rfl, by simp; omega, by simp, by rw [if_neg (by omega)]; simp⟩
  obtain ⟨out, h1, -, -, h2⟩ := C130_exact h [] m 2 hf rho hr hc
  exact ⟨out, h1, h2⟩

/-- C130: a valid request for more uses than the next one repairs the object, even if it raises itself. -/
theorem C130_repair (h : QChan.init false ops a b d e orth = .ok o) (calls : List KrausInt.Call)
    (n p : ℕ) (hn : 1 ≤ n) (hp : n < p) (rho : Arr ℂ) (hr : rho.rows = (d ^ a) ^ n) (hc : rho.cols = (d ^ a) ^ n) :
    ∃ out, (((KrausInt.start o).history (calls ++ [KrausInt.Call.use p])).channel rho n false).1 = .ok out ∧
      out.mat ((e ^ b) ^ n) ((e ^ b) ^ n) =
        Spec.applyKraus (Spec.tensorPow (ops.ops ops.len (e ^ b) (d ^ a)) n) (rho.mat ((d ^ a) ^ n) ((d ^ a) ^ n)) := by
  have hf : Spec.CopiesApplied ((calls ++ [KrausInt.Call.use p]).map KrausInt.Call.uses ++ [(n : ℤ)]) n := by
    refine Or.inr ⟨(calls ++ [KrausInt.Call.use p]).map KrausInt.Call.uses, n, [], rfl, ?_, by simp, ?_⟩
    · rw [List.getLast_cons (by simp)]
      simpa [KrausInt.Call.uses] using hp
    · rw [if_pos (by omega)]; simp
  obtain ⟨out, h1, -, -, h2⟩ := C130_exact h _ n n hf rho (by simpa using hr) (by simpa using hc)
  exact ⟨out, h1, by simpa using h2⟩

/-- The calls of the other model, as calls of this one. -/
def QChan.Call.toInt : QChan.Call → KrausInt.Call
  | .update n => .update n
  | c => .use c.uses

/-- The object without its `current_n`. -/
def forgetCur (q : KrausObj) : KrausObj := { q with curN := 0 }

theorem foldTensor_forget (l l' : List ℕ) (hl : l.length = l'.length) (p q : KrausObj) (h : forgetCur p = forgetCur q) :
    forgetCur (l.foldl (fun o _ => o.setTensor o.kraus o.nth) p) =
      forgetCur (l'.foldl (fun o _ => o.setTensor o.kraus o.nth) q) := by
  induction l generalizing l' p q with
  | nil =>
    cases l' with
    | nil => exact h
    | cons => cases hl
  | cons x l ih =>
    cases l' with
    | nil => cases hl
    | cons y l' =>
      simp only [List.foldl_cons]
      refine ih l' (by simpa using hl) _ _ ?_
      exact congrArg (fun r : KrausObj => r.setTensor r.kraus r.nth) h

/-- The same object in both models. -/
def SameObj (s : KrausInt) (q : KrausObj) : Prop := s.cur = q.curN ∧ forgetCur s.obj = forgetCur q

theorem retensor_same {s : KrausInt} {q : KrausObj} (h : SameObj s q) (n : ℕ) :
    forgetCur (s.retensor n) = forgetCur (q.retensor n) := by
  obtain ⟨h1, h2⟩ := h
  unfold KrausInt.retensor KrausObj.retensor
  by_cases c1 : q.curN < n
  · rw [if_pos c1, if_pos (by omega)]
    exact foldTensor_forget _ _ (by simp; omega) _ _ h2
  · rw [if_neg c1, if_neg (by omega)]
    by_cases c2 : n < q.curN
    · rw [if_pos c2, if_pos (by omega)]
      by_cases c3 : n = 1
      · rw [if_pos c3, if_pos (by omega)]
        exact congrArg (fun r : KrausObj => { r with nth := r.kraus }) h2
      · rw [if_neg c3, if_neg (by omega)]
        refine foldTensor_forget _ _ (by simp; omega) _ _ ?_
        exact congrArg (fun r : KrausObj => r.setTensor r.kraus r.kraus) h2
    · rw [if_neg c2, if_neg (by omega)]
      exact h2

theorem update_same {s : KrausInt} {q : KrausObj} (h : SameObj s q) (n : ℕ) :
    (s.update n).1 = (q.update n).1 ∧ SameObj (s.update n).2 (q.update n).2 := by
  have h1 := retensor_same h n
  have h2 : (s.retensor n).exchange = ({ q.retensor n with curN := n } : KrausObj).exchange := by
    change (forgetCur (s.retensor n)).exchange = (forgetCur (q.retensor n)).exchange
    rw [h1]
  unfold KrausInt.update KrausObj.update
  simp only [h2]
  rcases ({ q.retensor n with curN := n } : KrausObj).exchange with x | x
  · exact ⟨rfl, rfl, h1⟩
  · exact ⟨rfl, rfl, congrArg (fun r : KrausObj => { r with exch := x }) h1⟩

theorem sync_same {s : KrausInt} {q : KrausObj} (h : SameObj s q) (n : ℕ) :
    (s.sync n).1 = (QChan.sync q n).1 ∧ SameObj (s.sync n).2 (QChan.sync q n).2 := by
  unfold KrausInt.sync QChan.sync
  by_cases hc : n ≠ q.curN
  · rw [if_pos hc, if_pos (by rw [h.1]; exact_mod_cast hc)]
    exact update_same h n
  · rw [if_neg hc, if_neg (by rw [h.1]; exact_mod_cast hc)]
    exact ⟨rfl, h⟩

theorem call_same {s : KrausInt} {q : KrausObj} (h : SameObj s q) (c : QChan.Call) :
    SameObj (c.toInt.after s) (c.after q) := by
  cases c with
  | update n => exact (update_same h n).2
  | channel rho n a =>
    have := (sync_same h n).2
    simp only [QChan.Call.after, QChan.channel]
    rcases hs : QChan.sync q n with ⟨_ | _, q'⟩ <;> rw [hs] at this <;> exact this
  | channelBatch rho n a =>
    have := (sync_same h n).2
    simp only [QChan.Call.after, QChan.channelBatch]
    rcases hs : QChan.sync q n with ⟨_ | _, q'⟩ <;> rw [hs] at this <;> exact this
  | exchange rho n =>
    have := (sync_same h n).2
    simp only [QChan.Call.after, QChan.entropyExchange]
    rcases hs : QChan.sync q n with ⟨_ | _, q'⟩ <;> rw [hs] at this <;> exact this
  | exchangeAdj rho n =>
    have := (sync_same h n).2
    simp only [QChan.Call.after, QChan.entropyExchangeAdj]
    rcases hs : QChan.sync q n with ⟨_ | _, q'⟩ <;> rw [hs] at this <;> exact this

theorem history_same {s : KrausInt} {q : KrausObj} (h : SameObj s q) (calls : List QChan.Call) :
    SameObj (s.history (calls.map QChan.Call.toInt)) (QChan.history q calls) := by
  induction calls generalizing s q with
  | nil => exact h
  | cons c l ih => exact ih (call_same h c)

/-- Both models of the object agree on natural numbers, for every kind of object and every sequence of calls. -/
theorem C130_agrees (h : QChan.init sp ops a b d e orth = .ok o) (calls : List QChan.Call) (rho : Arr ℂ) (n : ℕ)
    (adjoint : Bool) :
    (((KrausInt.start o).history (calls.map QChan.Call.toInt)).channel rho n adjoint).1 =
      (QChan.channel (QChan.history o calls) rho n adjoint).1 := by
  obtain ⟨h1, -⟩ := qchanInit_ok h
  have hh := history_same (s := KrausInt.start o) (q := o) ⟨by rw [h1.cur]; rfl, rfl⟩ calls
  obtain ⟨e1, e2⟩ := sync_same hh n
  unfold KrausInt.channel QChan.channel
  generalize ((KrausInt.start o).history (calls.map QChan.Call.toInt)).sync n = S at e1 e2
  generalize QChan.sync (QChan.history o calls) n = T at e1 e2
  obtain ⟨r, s⟩ := S
  obtain ⟨r', q⟩ := T
  simp only at e1 e2
  subst e1
  rcases r with x | x
  · rfl
  · change (forgetCur s.obj).channel rho adjoint = (forgetCur q).channel rho adjoint
    rw [e2.2]

/-- The dephasing channel, asked for three uses, for minus one, for two (which raises) and for four (which raises): it applies
seven copies for the next call with four uses and is repaired by a call for three. -/
example : Spec.CopiesApplied [3, -1, 2, 4] 7 ∧ Spec.CopiesApplied [3, -1, 2, 4, 3] 3 :=
  ⟨Or.inr ⟨[3], -1, [2, 4], rfl, by decide, by decide, by decide⟩,
    Or.inr ⟨[3, -1, 2, 4], 3, [], rfl, by decide, by decide, by decide⟩⟩

/-- The dephasing channel raises for a valid state after a request for zero uses. -/
example : ∃ o, QChan.init false dephOps 1 1 2 2 [] = .ok o ∧
    (((KrausInt.start o).history [.use 0]).channel (Arr.eye 2) 1 false).1 = .error .value := by
  obtain ⟨o, ho⟩ := deph_ok false []
  exact ⟨o, ho, C130_refuted ho (by decide) [] 0 le_rfl 1 le_rfl _ rfl⟩

/-- **C130**: whether or not `channel` raises, it leaves the object the histories above speak of: the later calls see the number
of uses it was asked for. -/
theorem C130_left (s : KrausInt) (rho : Arr ℂ) (n : ℤ) (adjoint : Bool) :
    (s.channel rho n adjoint).2 = KrausInt.Call.after s (.use n) ∧ (s.channel rho n adjoint).2.cur = n := by
  have h : (s.channel rho n adjoint).2 = (s.sync n).2 := by
    unfold KrausInt.channel
    rcases hs : s.sync n with ⟨(_ | _), s'⟩ <;> rfl
  refine ⟨h, ?_⟩
  rw [h]
  unfold KrausInt.sync
  by_cases hn : n ≠ s.cur
  · rw [if_pos hn]
    unfold KrausInt.update
    cases (s.retensor n).exchange <;> rfl
  · rw [if_neg hn]
    exact (not_not.mp hn).symm

end PyQ
