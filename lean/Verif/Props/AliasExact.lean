import Verif.Props.AliasLast
import Verif.Props.FidelityProduct
import Verif.Props.ChoiInfo

/-!
# C71, exactly: what a dense channel built from an array answers after any calls and writes

The object keeps, for every use it is set to, the entries the caller's array had at some moment.  `Spec.Held` says which.
-/

namespace PyQ

open Matrix

namespace Spec

/-- The entries of an array of operators. -/
abbrev Entries := ℕ → ℕ → ℕ → ℂ

/-- What a dense channel object built from an array holds. -/
structure Held where
  /-- the entries of the caller's array -/
  now : Entries
  /-- for each use, the entries `channel` applies to it -/
  uses : List Entries
  /-- `channel` reads the caller's array itself -/
  live : Bool
  /-- for each use, the entries `entropy_exchange` answers for -/
  traced : List Entries

/-- An object that has just been built from an array. -/
def Held.start (v : Entries) : Held := ⟨v, [v], false, [v]⟩

/-- More uses are put in front, with the entries the array has now; for fewer uses all are replaced, and a single use reads the array from
then on. -/
def Held.resize (h : Held) (n : ℕ) : List Entries × Bool :=
  if h.uses.length < n then (List.replicate (n - h.uses.length) h.now ++ h.uses, false)
  else if n < h.uses.length then (List.replicate n h.now, decide (n = 1))
  else (h.uses, h.live)

/-- `update_kraus_operators` always computes the exchange anew, the other calls only for another number of uses. -/
def refreshes : QChan.Call → Bool
  | .update _ => true
  | _ => false

/-- What is held after an event. -/
def Held.after (h : Held) : Shared.Event → Held
  | .write v => { h with now := v, uses := if h.live then [v] else h.uses }
  | .call c => { h with uses := (h.resize c.uses).1, live := (h.resize c.uses).2,
                        traced := if c.uses ≠ h.uses.length ∨ refreshes c = true then (h.resize c.uses).1 else h.traced }

/-- The tensor product of a list of matrices. -/
noncomputable def product : List (Arr ℂ) → Arr ℂ
  | [] => ⟨1, 1, fun _ _ => 1⟩
  | [A] => A
  | A :: B :: l => A.kron (product (B :: l))

end Spec

/-! ### Tensor products of lists -/

/-- The tensor product of a list of arrays of operators. -/
noncomputable def kronOps : List (Arr3 ℂ) → Arr3 ℂ
  | [] => ⟨1, 1, 1, fun _ _ _ => 1⟩
  | [A] => A
  | A :: B :: l => A.kron (kronOps (B :: l))

theorem kronOps_cons (A : Arr3 ℂ) {l : List (Arr3 ℂ)} (h : l ≠ []) : kronOps (A :: l) = A.kron (kronOps l) := by
  cases l with
  | nil => exact absurd rfl h
  | cons B l => rfl

theorem product_cons (A : Arr ℂ) {l : List (Arr ℂ)} (h : l ≠ []) : Spec.product (A :: l) = A.kron (Spec.product l) := by
  cases l with
  | nil => exact absurd rfl h
  | cons B l => rfl

theorem Arr.Same.rfl' {A : Arr ℂ} : Arr.Same A A := ⟨rfl, rfl, fun _ _ _ _ => rfl⟩

theorem Arr.Same.kron_right {A B B' : Arr ℂ} (h : Arr.Same B B') : Arr.Same (A.kron B) (A.kron B') := by
  refine ⟨congrArg (A.rows * ·) h.1, congrArg (A.cols * ·) h.2.1, ?_⟩
  intro i hi j hj
  have hi' : i < A.rows * B.rows := hi
  have hj' : j < A.cols * B.cols := hj
  have hbr : 0 < B.rows := Nat.pos_of_ne_zero fun hz => by rw [hz] at hi'; omega
  have hbc : 0 < B.cols := Nat.pos_of_ne_zero fun hz => by rw [hz] at hj'; omega
  show A.get (i / B.rows) (j / B.cols) * B.get (i % B.rows) (j % B.cols) =
    A.get (i / B'.rows) (j / B'.cols) * B'.get (i % B'.rows) (j % B'.cols)
  rw [← h.1, ← h.2.1, h.2.2 _ (Nat.mod_lt _ hbr) _ (Nat.mod_lt _ hbc)]

/-- What operators do to a matrix. -/
noncomputable def imageOf (A : Arr3 ℂ) (rho : Arr ℂ) : Arr ℂ :=
  Arr.ofMat (Spec.applyKraus (A.ops A.len A.rows A.cols) (rho.mat A.cols A.cols))

/-- The exchange matrix of operators. -/
noncomputable def exchangeOf (A : Arr3 ℂ) (rho : Arr ℂ) : Arr ℂ :=
  Arr.ofMat (Spec.entropyExchange (A.ops A.len A.rows A.cols) (rho.mat A.cols A.cols))

theorem Spec.entropyExchange_kron' {l₁ l₂ a b c d : ℕ} (K : Fin l₁ → Matrix (Fin a) (Fin c) ℂ) (L : Fin l₂ → Matrix (Fin b) (Fin d) ℂ)
    (ρ : Matrix (Fin c) (Fin c) ℂ) (σ : Matrix (Fin d) (Fin d) ℂ) :
    Spec.entropyExchange (fun k : Fin (l₁ * l₂) => Spec.kron (K k.divNat) (L k.modNat)) (Spec.kron ρ σ) =
      Spec.kron (Spec.entropyExchange K ρ) (Spec.entropyExchange L σ) := by
  ext i j
  simp only [Spec.entropyExchange, Spec.kron_conjTranspose, Spec.kron_mul, kron_trace']
  rfl

theorem ofMat_kron {a b c d : ℕ} (M : Matrix (Fin a) (Fin c) ℂ) (N : Matrix (Fin b) (Fin d) ℂ) :
    Arr.Same (Arr.ofMat (Spec.kron M N)) ((Arr.ofMat M).kron (Arr.ofMat N)) := by
  rw [Arr.same_iff_mat]
  refine ⟨rfl, rfl, ?_⟩
  show (Arr.ofMat (Spec.kron M N)).mat (a * b) (c * d) = ((Arr.ofMat M).kron (Arr.ofMat N)).mat (a * b) (c * d)
  rw [arr_kron_mat (Arr.ofMat M) (Arr.ofMat N) a b c d rfl rfl, Arr.ofMat_mat, Arr.ofMat_mat, Arr.ofMat_mat]

theorem imageOf_kron (A B : Arr3 ℂ) (rho sigma : Arr ℂ) (hr : sigma.rows = B.cols) (hc : sigma.cols = B.cols) :
    Arr.Same (imageOf (A.kron B) (rho.kron sigma)) ((imageOf A rho).kron (imageOf B sigma)) := by
  have h : imageOf (A.kron B) (rho.kron sigma) = Arr.ofMat (Spec.kron
      (Spec.applyKraus (A.ops A.len A.rows A.cols) (rho.mat A.cols A.cols))
      (Spec.applyKraus (B.ops B.len B.rows B.cols) (sigma.mat B.cols B.cols))) := by
    show Arr.ofMat (Spec.applyKraus ((A.kron B).ops (A.len * B.len) (A.rows * B.rows) (A.cols * B.cols))
      ((rho.kron sigma).mat (A.cols * B.cols) (A.cols * B.cols))) = _
    rw [kron_ops A B A.len B.len A.rows B.rows A.cols B.cols rfl rfl rfl, arr_kron_mat rho sigma _ _ _ _ hr hc, Spec.applyKraus_kron]
  rw [h]
  exact ofMat_kron _ _

theorem exchangeOf_kron (A B : Arr3 ℂ) (rho sigma : Arr ℂ) (hr : sigma.rows = B.cols) (hc : sigma.cols = B.cols) :
    Arr.Same (exchangeOf (A.kron B) (rho.kron sigma)) ((exchangeOf A rho).kron (exchangeOf B sigma)) := by
  have h : exchangeOf (A.kron B) (rho.kron sigma) = Arr.ofMat (Spec.kron
      (Spec.entropyExchange (A.ops A.len A.rows A.cols) (rho.mat A.cols A.cols))
      (Spec.entropyExchange (B.ops B.len B.rows B.cols) (sigma.mat B.cols B.cols))) := by
    show Arr.ofMat (Spec.entropyExchange ((A.kron B).ops (A.len * B.len) (A.rows * B.rows) (A.cols * B.cols))
      ((rho.kron sigma).mat (A.cols * B.cols) (A.cols * B.cols))) = _
    rw [kron_ops A B A.len B.len A.rows B.rows A.cols B.cols rfl rfl rfl, arr_kron_mat rho sigma _ _ _ _ hr hc,
      Spec.entropyExchange_kron']
  rw [h]
  exact ofMat_kron _ _

variable {ops : Arr3 ℂ} {a b d e : ℕ} {orth : List ℕ}

theorem product_shape (rhos : List (Arr ℂ)) (vs : List Spec.Entries) (hl : vs.length = rhos.length)
    (hr : ∀ rho ∈ rhos, rho.rows = ops.cols ∧ rho.cols = ops.cols) (hne : rhos ≠ []) :
    (Spec.product rhos).rows = (kronOps (vs.map (newOps ops))).cols ∧ (Spec.product rhos).cols = (kronOps (vs.map (newOps ops))).cols := by
  induction rhos generalizing vs with
  | nil => exact absurd rfl hne
  | cons rho rhos ih =>
    cases vs with
    | nil => simp at hl
    | cons v vs =>
      have h0 := hr rho (by simp)
      cases rhos with
      | nil =>
        cases vs with
        | nil => exact h0
        | cons _ _ => simp at hl
      | cons sigma rhos =>
        have hvs : vs ≠ [] := by rintro rfl; simp at hl
        obtain ⟨i1, i2⟩ := ih vs (by simpa using hl) (fun x hx => hr x (by simp [hx])) (by simp)
        rw [product_cons _ (by simp), List.map_cons, kronOps_cons _ (by simpa using hvs)]
        exact ⟨by rw [Arr.rows_kron, h0.1, i1]; rfl, by rw [Arr.cols_kron, h0.2, i2]; rfl⟩

/-- A map that splits over tensor products splits over tensor products of lists. -/
theorem product_split (f : Arr3 ℂ → Arr ℂ → Arr ℂ)
    (hf : ∀ A B rho sigma, sigma.rows = B.cols → sigma.cols = B.cols → Arr.Same (f (A.kron B) (rho.kron sigma)) ((f A rho).kron (f B sigma)))
    (rhos : List (Arr ℂ)) (vs : List Spec.Entries) (hl : vs.length = rhos.length)
    (hr : ∀ rho ∈ rhos, rho.rows = ops.cols ∧ rho.cols = ops.cols) (hne : rhos ≠ []) :
    Arr.Same (f (kronOps (vs.map (newOps ops))) (Spec.product rhos))
      (Spec.product (List.zipWith (fun v rho => f (newOps ops v) rho) vs rhos)) := by
  induction rhos generalizing vs with
  | nil => exact absurd rfl hne
  | cons rho rhos ih =>
    cases vs with
    | nil => simp at hl
    | cons v vs =>
      cases rhos with
      | nil =>
        cases vs with
        | nil => exact Arr.Same.rfl'
        | cons _ _ => simp at hl
      | cons sigma rhos =>
        have hvs : vs ≠ [] := by rintro rfl; simp at hl
        have hl' : vs.length = (sigma :: rhos).length := by simpa using hl
        have hz : List.zipWith (fun v rho => f (newOps ops v) rho) vs (sigma :: rhos) ≠ [] := by
          cases vs with
          | nil => exact absurd rfl hvs
          | cons _ _ => simp
        obtain ⟨s1, s2⟩ := product_shape (ops := ops) (sigma :: rhos) vs hl' (fun x hx => hr x (by simp [hx])) (by simp)
        rw [product_cons _ (by simp), List.map_cons, kronOps_cons _ (by simpa using hvs), List.zipWith_cons_cons, product_cons _ hz]
        exact (hf _ _ _ _ s1 s2).trans (ih vs hl' (fun x hx => hr x (by simp [hx])) (by simp)).kron_right

/-! ### What the object holds -/

theorem fold_kronOps (l : List ℕ) (o : KrausObj) (L : List (Arr3 ℂ)) (hL : L ≠ []) (h : o.nth = kronOps L) :
    (l.foldl (fun o _ => o.setTensor o.kraus o.nth) o).nth = kronOps (List.replicate l.length o.kraus ++ L) := by
  induction l generalizing o L with
  | nil => exact h
  | cons x l ih =>
    rw [List.foldl_cons, ih (o.setTensor o.kraus o.nth) (o.kraus :: L) (by simp) (by
      rw [kronOps_cons _ hL, ← h]; rfl)]
    show kronOps (List.replicate l.length o.kraus ++ o.kraus :: L) = _
    rw [List.length_cons, List.replicate_succ', List.append_assoc, List.singleton_append]

theorem retensor_kronOps (o : KrausObj) (L : List (Arr3 ℂ)) (hL : L ≠ []) (h : o.nth = kronOps L) (hcur : o.curN = L.length) (n : ℕ)
    (hn : 1 ≤ n) :
    (o.retensor n).nth = kronOps (if L.length < n then List.replicate (n - L.length) o.kraus ++ L
      else if n < L.length then List.replicate n o.kraus else L) := by
  unfold KrausObj.retensor
  rw [hcur]
  split
  · rw [fold_kronOps _ _ L hL h, List.length_range']
  · split
    · split
      · subst n
        rfl
      · rename_i hn1
        rw [fold_kronOps _ _ [o.kraus, o.kraus] (by simp) (by rfl), List.length_range]
        congr 1
        show List.replicate (n - 2) o.kraus ++ List.replicate 2 o.kraus = _
        rw [← List.replicate_add]
        congr 1
        omega
    · exact h

/-- The operators and the exchange array after a call. -/
theorem after_call_nth (o : KrausObj) (hsp : o.sparse = false) (c : QChan.Call) :
    (c.after o).nth = (o.retensor c.uses).nth ∧
      (if c.uses ≠ o.curN ∨ Spec.refreshes c = true then
        Arr3.tensordot (o.retensor c.uses).nth.conjT (o.retensor c.uses).nth = .ok (c.after o).exch
      else (c.after o).exch = o.exch) := by
  have hu : (o.update c.uses).2.nth = (o.retensor c.uses).nth ∧
      Arr3.tensordot (o.retensor c.uses).nth.conjT (o.retensor c.uses).nth = .ok (o.update c.uses).2.exch := by
    have hs' : (o.retensor c.uses).sparse = false := by rw [(retensor_static o c.uses).2.1, hsp]
    obtain ⟨x, hx⟩ := tensordot_conj (o.retensor c.uses).nth
    have hexc : ({ o.retensor c.uses with curN := c.uses } : KrausObj).exchange = .ok x := by
      unfold KrausObj.exchange
      simp only [hs', Bool.false_eq_true, if_false]
      exact hx
    unfold KrausObj.update
    simp only [hexc]
    exact ⟨trivial, hx⟩
  have hsync : c.after o = (QChan.sync o c.uses).2 → Spec.refreshes c = false →
      (c.after o).nth = (o.retensor c.uses).nth ∧
      (if c.uses ≠ o.curN ∨ Spec.refreshes c = true then
        Arr3.tensordot (o.retensor c.uses).nth.conjT (o.retensor c.uses).nth = .ok (c.after o).exch
      else (c.after o).exch = o.exch) := by
    intro hh hf
    by_cases hc : c.uses = o.curN
    · have hret : o.retensor c.uses = o := by
        unfold KrausObj.retensor
        rw [if_neg (by omega), if_neg (by omega)]
      have : c.after o = o := by
        rw [hh]
        unfold QChan.sync
        rw [if_neg (by rw [hc]; simp)]
      rw [this, hret]
      refine ⟨rfl, ?_⟩
      rw [if_neg (by rw [hf, hc]; simp)]
    · have : c.after o = (o.update c.uses).2 := by
        rw [hh]
        unfold QChan.sync
        rw [if_pos hc]
      rw [this, if_pos (Or.inl hc)]
      exact hu
  cases c with
  | update n =>
    rw [if_pos (show _ ∨ Spec.refreshes (.update n) = true from Or.inr rfl)]
    exact hu
  | channel rho n adj =>
    refine hsync ?_ rfl
    simp only [QChan.Call.after, QChan.Call.uses, QChan.channel]
    rcases QChan.sync o n with ⟨_ | _, o'⟩ <;> rfl
  | channelBatch rho n adj =>
    refine hsync ?_ rfl
    simp only [QChan.Call.after, QChan.Call.uses, QChan.channelBatch]
    rcases QChan.sync o n with ⟨_ | _, o'⟩ <;> rfl
  | exchange rho n =>
    refine hsync ?_ rfl
    simp only [QChan.Call.after, QChan.Call.uses, QChan.entropyExchange]
    rcases QChan.sync o n with ⟨_ | _, o'⟩ <;> rfl
  | exchangeAdj rho n =>
    refine hsync ?_ rfl
    simp only [QChan.Call.after, QChan.Call.uses, QChan.entropyExchangeAdj]
    rcases QChan.sync o n with ⟨_ | _, o'⟩ <;> rfl

/-- The object holds what the specification says. -/
structure Agrees (ops : Arr3 ℂ) (s : Shared) (h : Spec.Held) : Prop where
  shared : s.krausShared = true
  dense : s.obj.sparse = false
  kraus : s.obj.kraus = newOps ops h.now
  cur : s.obj.curN = h.uses.length
  pos : h.uses ≠ []
  nth : s.obj.nth = kronOps (h.uses.map (newOps ops))
  live : s.nthShared = h.live
  one : h.live = true → h.uses = [h.now]
  traced : h.traced.length = h.uses.length
  exch : Arr3.tensordot (kronOps (h.traced.map (newOps ops))).conjT (kronOps (h.traced.map (newOps ops))) = .ok s.obj.exch

theorem agrees_after {s : Shared} {h : Spec.Held} (hag : Agrees ops s h) (ev : Shared.Event)
    (hpos : ∀ c, ev = .call c → 1 ≤ c.uses) : Agrees ops (s.after ev) (h.after ev) := by
  obtain ⟨h1, h2, h3, h4, h5, h6, h7, h8, h9, h10⟩ := hag
  cases ev with
  | write v =>
    have hw : s.after (.write v) = s.write v := rfl
    rw [hw]
    constructor
    all_goals try (unfold Shared.write; simp only [h1, if_true])
    · exact h2
    · rw [h3]; rfl
    · unfold Spec.Held.after
      rw [h4]
      by_cases hl : h.live = true
      · simp [hl, h8 hl]
      · simp [hl]
    · unfold Spec.Held.after
      by_cases hl : h.live = true
      · simp [hl]
      · simpa [hl] using h5
    · unfold Spec.Held.after
      rw [h7]
      by_cases hl : h.live = true
      · simp only [hl, if_true]
        rw [h6, h8 hl]
        rfl
      · simp only [hl, Bool.false_eq_true, if_false]
        exact h6
    · exact h7
    · intro hl
      have hl' : h.live = true := hl
      simp [Spec.Held.after, hl']
    · unfold Spec.Held.after
      by_cases hl : h.live = true
      · simp only [hl, if_true]
        rw [h9, h8 hl]
        rfl
      · simp only [hl, Bool.false_eq_true, if_false]
        exact h9
    · exact h10
  | call c =>
    have hu := hpos c rfl
    obtain ⟨g1, g2, g3⟩ := after_call s.obj c
    obtain ⟨k1, k2⟩ := after_call_nth s.obj h2 c
    have hret := retensor_kronOps s.obj (h.uses.map (newOps ops)) (by simpa using h5) h6 (by rw [h4, List.length_map]) c.uses hu
    have hnth : (s.obj.retensor c.uses).nth = kronOps ((h.resize c.uses).1.map (newOps ops)) := by
      rw [hret, List.length_map]
      congr 1
      unfold Spec.Held.resize
      split
      · rw [List.map_append, List.map_replicate, h3]
      · split
        · rw [List.map_replicate, h3]
        · rfl
    have hlen : (h.resize c.uses).1.length = c.uses := by
      unfold Spec.Held.resize
      split
      · simp; omega
      · split
        · simp
        · show h.uses.length = _; omega
    have hobj : (s.after (.call c)).obj = c.after s.obj := rfl
    constructor
    · exact h1
    · exact g2.trans h2
    · exact g1.trans h3
    · rw [hobj, g3]; exact hlen.symm
    · intro hh
      have hh' : (h.resize c.uses).1 = [] := hh
      rw [hh'] at hlen
      simp at hlen
      omega
    · rw [hobj, k1, hnth]; rfl
    · show s.sharedAt c.uses = (h.resize c.uses).2
      unfold Shared.sharedAt Spec.Held.resize
      rw [h4, h7]
      split
      · rfl
      · split <;> rfl
    · intro hl
      have hl' : (h.resize c.uses).2 = true := hl
      show (h.resize c.uses).1 = [h.now]
      unfold Spec.Held.resize at hl' ⊢
      split at hl'
      · cases hl'
      · rename_i q1
        rw [if_neg q1]
        split at hl'
        · rename_i q2
          rw [if_pos q2]
          have : c.uses = 1 := by simpa using hl'
          rw [this]
          rfl
        · rename_i q2
          rw [if_neg q2]
          exact h8 hl'
    · show (if c.uses ≠ h.uses.length ∨ Spec.refreshes c = true then (h.resize c.uses).1 else h.traced).length = (h.resize c.uses).1.length
      split
      · rfl
      · rename_i hno
        rw [h9, hlen]
        by_contra hne
        exact hno (Or.inl (Ne.symm hne))
    · show Arr3.tensordot (kronOps ((if c.uses ≠ h.uses.length ∨ Spec.refreshes c = true then (h.resize c.uses).1 else h.traced).map
        (newOps ops))).conjT (kronOps ((if c.uses ≠ h.uses.length ∨ Spec.refreshes c = true then (h.resize c.uses).1 else h.traced).map
        (newOps ops))) = .ok (c.after s.obj).exch
      rw [h4] at k2
      by_cases hc : c.uses ≠ h.uses.length ∨ Spec.refreshes c = true
      · rw [if_pos hc] at k2 ⊢
        rw [← hnth]
        exact k2
      · rw [if_neg hc] at k2 ⊢
        rw [k2]
        exact h10

theorem agrees_events {s : Shared} {h : Spec.Held} (hag : Agrees ops s h) (events : List Shared.Event)
    (hpos : ∀ c ∈ Shared.calls events, 1 ≤ c.uses) : Agrees ops (events.foldl Shared.after s) (events.foldl Spec.Held.after h) := by
  induction events generalizing s h with
  | nil => exact hag
  | cons ev es ih =>
    rw [List.foldl_cons, List.foldl_cons]
    refine ih (agrees_after hag ev ?_) ?_
    · rintro c rfl
      exact hpos c (by simp [Shared.calls])
    · intro c hc
      refine hpos c ?_
      cases ev with
      | call c' => exact List.mem_cons_of_mem _ hc
      | write v => exact hc

theorem agrees_start {s : Shared} (h : Shared.init false (.array ops) a b d e orth = .ok s) :
    Agrees ops s (Spec.Held.start ops.get) ∧ s.obj.orth = orth ∧ ops.rows = e ^ b ∧ ops.cols = d ^ a := by
  have hq : ∃ o, QChan.init false ops a b d e orth = .ok o ∧ s = ⟨o, true, false⟩ := by
    unfold Shared.init at h
    rcases hq : QChan.init false ops a b d e orth with y | o
    · simp only [hq] at h; cases h
    · simp only [hq] at h; cases h
      exact ⟨o, rfl, rfl⟩
  obtain ⟨o, ho, rfl⟩ := hq
  obtain ⟨h1, h2, h3, h4, h5, h6, h7, h8, h9, h10, h11, h12⟩ := qchanInit_ok ho
  have hnth : o.nth = ops := by rw [h1.nth, h2]; rfl
  refine ⟨⟨rfl, h3, h2, h1.cur, by simp [Spec.Held.start], hnth, rfl, by simp [Spec.Held.start], rfl, ?_⟩, by simpa using h8, h11, h10⟩
  have := h1.exch
  rw [hnth] at this
  exact this

theorem events_orth (events : List Shared.Event) (s : Shared) : (events.foldl Shared.after s).obj.orth = s.obj.orth := by
  induction events generalizing s with
  | nil => rfl
  | cons ev es ih =>
    rw [List.foldl_cons, ih]
    cases ev with
    | call c => exact (history_static s.obj [c]).2.2.2.2.2.2
    | write v =>
      show (s.write v).obj.orth = _
      unfold Shared.write
      split <;> rfl

/-- **C71, exactly, for `channel`**.  A dense channel is built from an array, and then there are any calls for at least one use and any
writes of the caller.  Of a product of states, one for each use, `channel` applies to each the operators that `Spec.Held` says are held
for this use. -/
theorem C71_channel_exact (s : Shared) (h : Shared.init false (.array ops) a b d e orth = .ok s) (events : List Shared.Event)
    (hpos : ∀ c ∈ Shared.calls events, 1 ≤ c.uses) (rhos : List (Arr ℂ)) (hne : rhos ≠ [])
    (hr : ∀ rho ∈ rhos, rho.rows = d ^ a ∧ rho.cols = d ^ a) :
    let rho := Spec.product rhos
    let held := (events ++ [Shared.Event.call (.channel rho rhos.length false)]).foldl Spec.Held.after (Spec.Held.start ops.get)
    held.uses.length = rhos.length ∧
    ∃ out, (QChan.channel (events.foldl Shared.after s).obj rho rhos.length false).1 = .ok out ∧
      Arr.Same out (Spec.product (List.zipWith (fun v sigma => Arr.ofMat (Spec.applyKraus
        ((newOps ops v).ops ops.len (e ^ b) (d ^ a)) (sigma.mat (d ^ a) (d ^ a)))) held.uses rhos)) := by
  intro rho held
  obtain ⟨hag, -, hrows, hcols⟩ := agrees_start h
  have hlen : 1 ≤ rhos.length := List.length_pos_of_ne_nil hne
  have h1 := agrees_events hag events hpos
  have h2 : Agrees ops ((events.foldl Shared.after s).after (.call (.channel rho rhos.length false))) held := by
    show Agrees ops _ (List.foldl Spec.Held.after _ (events ++ [_]))
    rw [List.foldl_append]
    refine agrees_after h1 (.call (.channel rho rhos.length false)) ?_
    intro c hc
    cases hc
    exact hlen
  set t := (events.foldl Shared.after s).obj with ht
  have hobj : ((events.foldl Shared.after s).after (.call (.channel rho rhos.length false))).obj =
      (QChan.sync t rhos.length).2 := by
    show (QChan.channel t rho rhos.length false).2 = _
    unfold QChan.channel
    rcases QChan.sync t rhos.length with ⟨_ | _, o'⟩ <;> rfl
  have hsync : (QChan.sync t rhos.length).1 = .ok () := by
    unfold QChan.sync
    split
    · unfold KrausObj.update
      have hs' : (t.retensor rhos.length).sparse = false := by rw [(retensor_static t _).2.1, h1.dense]
      obtain ⟨x, hx⟩ := tensordot_conj (t.retensor rhos.length).nth
      have hexc : ({ t.retensor rhos.length with curN := rhos.length } : KrausObj).exchange = .ok x := by
        unfold KrausObj.exchange
        simp only [hs', Bool.false_eq_true, if_false]
        exact hx
      simp only [hexc]
    · rfl
  have hcur : held.uses.length = rhos.length := by
    have := h2.cur
    rw [hobj] at this
    have hc : (QChan.sync t rhos.length).2.curN = rhos.length := QChan.sync_curN (r := (QChan.sync t rhos.length).1) rfl
    rw [hc] at this
    exact this.symm
  have hr' : ∀ x ∈ rhos, x.rows = ops.cols ∧ x.cols = ops.cols := by rw [hcols]; exact hr
  obtain ⟨s1, s2⟩ := product_shape (ops := ops) rhos held.uses hcur hr' hne
  obtain ⟨out, e1, e2, e3, e4⟩ := channel_of_nth (QChan.sync t rhos.length).2 (by rw [← hobj]; exact h2.dense) _
    (by rw [← hobj]; exact h2.nth) rho _ _ rfl rfl s1 s2
  refine ⟨hcur, out, ?_, ?_⟩
  · unfold QChan.channel
    generalize QChan.sync t rhos.length = p at hsync e1
    obtain ⟨p1, p2⟩ := p
    simp only at hsync e1
    subst hsync
    exact e1
  · have hs : Arr.Same out (imageOf (kronOps (held.uses.map (newOps ops))) rho) := by
      rw [Arr.same_iff_mat]
      refine ⟨e2, e3, ?_⟩
      rw [e2, e3, e4]
      exact (Arr.ofMat_mat _).symm
    refine hs.trans ?_
    have := product_split (ops := ops) imageOf imageOf_kron rhos held.uses hcur hr' hne
    unfold imageOf at this
    rw [← hrows, ← hcols]
    exact this

/-- **C71, exactly, for `entropy_exchange`** of a channel without `orthogonal_kraus`. -/
theorem C71_exchange_exact (s : Shared) (h : Shared.init false (.array ops) a b d e [] = .ok s) (events : List Shared.Event)
    (hpos : ∀ c ∈ Shared.calls events, 1 ≤ c.uses) (rhos : List (Arr ℂ)) (hne : rhos ≠ [])
    (hr : ∀ rho ∈ rhos, rho.rows = d ^ a ∧ rho.cols = d ^ a) :
    let rho := Spec.product rhos
    let held := (events ++ [Shared.Event.call (.exchange rho rhos.length)]).foldl Spec.Held.after (Spec.Held.start ops.get)
    held.traced.length = rhos.length ∧
    ∃ out, (QChan.entropyExchange (events.foldl Shared.after s).obj rho rhos.length).1 = .ok [out] ∧
      Arr.Same out (Spec.product (List.zipWith (fun v sigma => Arr.ofMat (Spec.entropyExchange
        ((newOps ops v).ops ops.len (e ^ b) (d ^ a)) (sigma.mat (d ^ a) (d ^ a)))) held.traced rhos)) := by
  intro rho held
  obtain ⟨hag, ho0, hrows, hcols⟩ := agrees_start h
  have hlen : 1 ≤ rhos.length := List.length_pos_of_ne_nil hne
  have h1 := agrees_events hag events hpos
  have h2 : Agrees ops ((events.foldl Shared.after s).after (.call (.exchange rho rhos.length))) held := by
    show Agrees ops _ (List.foldl Spec.Held.after _ (events ++ [_]))
    rw [List.foldl_append]
    refine agrees_after h1 (.call (.exchange rho rhos.length)) ?_
    intro c hc
    cases hc
    exact hlen
  have ho1 : ((events.foldl Shared.after s).after (.call (.exchange rho rhos.length))).obj.orth = [] := by
    have := events_orth (events ++ [.call (.exchange rho rhos.length)]) s
    rw [List.foldl_append, ho0] at this
    exact this
  set t := (events.foldl Shared.after s).obj with ht
  have hobj : ((events.foldl Shared.after s).after (.call (.exchange rho rhos.length))).obj = (QChan.sync t rhos.length).2 := by
    show (QChan.entropyExchange t rho rhos.length).2 = _
    unfold QChan.entropyExchange
    rcases QChan.sync t rhos.length with ⟨_ | _, o'⟩ <;> rfl
  have hsync : (QChan.sync t rhos.length).1 = .ok () := by
    unfold QChan.sync
    split
    · unfold KrausObj.update
      have hs' : (t.retensor rhos.length).sparse = false := by rw [(retensor_static t _).2.1, h1.dense]
      obtain ⟨x, hx⟩ := tensordot_conj (t.retensor rhos.length).nth
      have hexc : ({ t.retensor rhos.length with curN := rhos.length } : KrausObj).exchange = .ok x := by
        unfold KrausObj.exchange
        simp only [hs', Bool.false_eq_true, if_false]
        exact hx
      simp only [hexc]
    · rfl
  have hcur : held.traced.length = rhos.length := by
    have := h2.cur
    rw [hobj] at this
    have hc : (QChan.sync t rhos.length).2.curN = rhos.length := QChan.sync_curN (r := (QChan.sync t rhos.length).1) rfl
    rw [hc] at this
    exact h2.traced.trans this.symm
  have hr' : ∀ x ∈ rhos, x.rows = ops.cols ∧ x.cols = ops.cols := by rw [hcols]; exact hr
  obtain ⟨s1, s2⟩ := product_shape (ops := ops) rhos held.traced hcur hr' hne
  set A := kronOps (held.traced.map (newOps ops)) with hA
  set p := (QChan.sync t rhos.length).2 with hp
  have hdense : p.sparse = false := by rw [← hobj]; exact h2.dense
  have horth : p.orth = [] := by rw [← hobj]; exact ho1
  have hexch : Arr3.tensordot A.conjT A = .ok p.exch := by rw [← hobj]; exact h2.exch
  let q : KrausObj := { p with kraus := A, nth := A, curN := 1 }
  have hq : Holds q 1 := ⟨rfl, rfl, fun hh => (Bool.false_ne_true (hdense.symm.trans hh)).elim, hexch⟩
  obtain ⟨W, e1, e2, e3, e4⟩ := exchange_holds le_rfl hq (Or.inr horth) rho (by rw [pow_one]; exact s1) (by rw [pow_one]; exact s2)
  refine ⟨hcur, W, ?_, ?_⟩
  · have : p.entropyExchange rho rhos.length = .ok [W] := by
      rw [← e1]
      unfold KrausObj.entropyExchange
      simp only [q, hdense, horth]
      rfl
    unfold QChan.entropyExchange
    rw [hp] at this
    generalize QChan.sync t rhos.length = z at hsync this
    obtain ⟨p1, p2⟩ := z
    simp only at hsync this
    subst hsync
    exact this
  · have hs : Arr.Same W (exchangeOf A rho) := by
      rw [Arr.same_iff_mat]
      rw [pow_one] at e2 e3
      refine ⟨e2, e3, ?_⟩
      rw [tensorPow_one_eq, pow_one, pow_one, pow_one] at e4
      rw [e2, e3, e4]
      exact (Arr.ofMat_mat _).symm
    refine hs.trans ?_
    have := product_split (ops := ops) exchangeOf exchangeOf_kron rhos held.traced hcur hr' hne
    unfold exchangeOf at this
    rw [← hrows, ← hcols]
    exact this

/-- The identity channel as an array: two uses, a write of bit flips, three uses.  The first use flips the bit, the other two do
not. -/
example : ∃ s out, Shared.init false (.array wireOps) 1 1 2 2 [] = .ok s ∧
    (QChan.channel (([.call (.update 2), .write flipped] : List Shared.Event).foldl Shared.after s).obj
      (Spec.product [ketZero, ketZero, ketZero]) 3 false).1 = .ok out ∧
    Arr.Same out (Spec.product [
      Arr.ofMat (Spec.applyKraus ((newOps wireOps flipped).ops 1 2 2) (ketZero.mat 2 2)),
      Arr.ofMat (Spec.applyKraus (wireOps.ops 1 2 2) (ketZero.mat 2 2)),
      Arr.ofMat (Spec.applyKraus (wireOps.ops 1 2 2) (ketZero.mat 2 2))]) := by
  obtain ⟨o, ho⟩ := wireOps_ok
  have hs : Shared.init false (.array wireOps) 1 1 2 2 [] = .ok ⟨o, true, false⟩ := by
    unfold Shared.init
    simp only [ho]
    rfl
  obtain ⟨-, out, h1, h2⟩ := C71_channel_exact _ hs [.call (.update 2), .write flipped] (by simp [Shared.calls, QChan.Call.uses])
    [ketZero, ketZero, ketZero] (by simp) (by simp [ketZero])
  exact ⟨_, out, hs, h1, h2⟩

end PyQ
