import Verif.Props.IntUses

/-! # C130 for sparse objects -/

namespace PyQ

variable {ops : Arr3 ℂ} {a b d e : ℕ} {orth : List ℕ} {o : KrausObj}

/-- A sparse object with the operators of `cur + x` uses and the conjugates of `p` uses. -/
structure SparseInt (s : KrausInt) (x : ℤ) (p : ℕ) : Prop where
  base : HoldsInt s x
  sp : s.obj.sparse = true
  conj : s.obj.nthConj = (powArr s.obj.kraus p).conjT
  pos : 1 ≤ p
  eq : s.cur + x ≠ 1 → (p : ℤ) = s.cur + x
  exch : (p : ℤ) = s.cur + x → Arr3.tensordot s.obj.nth.conjT s.obj.nth = .ok s.obj.exch

theorem retensor_conj {s : KrausInt} {x : ℤ} {p : ℕ} (h : SparseInt s x p) (n : ℤ) :
    ∃ p', (s.retensor n).nthConj = (powArr s.obj.kraus p').conjT ∧ 1 ≤ p' ∧
      (n + excess s.cur x [n] ≠ 1 → (p' : ℤ) = n + excess s.cur x [n]) ∧ (2 ≤ p ∨ (n ≠ 1 ∧ n ≠ s.cur) → 2 ≤ p') ∧
      (s.cur = 1 → n = 1 → p' = p) := by
  have hpos := h.base.pos
  have fold : ∀ (l : List ℕ) (o : KrausObj) (m : ℕ), 1 ≤ m → o.nth = powArr o.kraus m → o.sparse = true → o.nthConj = o.nth.conjT →
      (l.foldl (fun o _ => o.setTensor o.kraus o.nth) o).nthConj = (powArr o.kraus (m + l.length)).conjT := by
    intro l o m hm h1 h2 h3
    have := fold_tensor l o m hm h1 fun _ => h3
    rw [this.2.1 h2, this.1]
  unfold KrausInt.retensor
  by_cases h1 : s.cur < n
  · rw [if_pos h1]
    obtain ⟨t, ht⟩ : ∃ t, (n - s.cur).toNat = t + 1 := ⟨(n - s.cur).toNat - 1, by omega⟩
    rw [ht, List.range_succ_eq_map, List.foldl_cons]
    refine ⟨(n + x).toNat, ?_, by omega, ?_, ?_, ?_⟩
    · rw [fold _ (s.obj.setTensor s.obj.kraus s.obj.nth) ((s.cur + x).toNat + 1) (by omega)]
      · rw [List.length_map, List.length_range, show (s.cur + x).toNat + 1 + t = (n + x).toNat by omega]
        rfl
      · simp only [KrausObj.setTensor]
        rw [powArr_succ _ (by omega), ← h.base.nth]
      · exact h.sp
      · simp only [KrausObj.setTensor]
        rw [if_pos h.sp]
    · intro _
      simp only [excess]
      rw [if_neg (by omega)]
      omega
    · intro _; omega
    · intro _ _; omega
  · rw [if_neg h1]
    by_cases h2 : n < s.cur
    · rw [if_pos h2]
      by_cases h3 : n = 1
      · rw [if_pos h3]
        refine ⟨p, h.conj, h.pos, ?_, ?_, ?_⟩
        · intro hh
          simp only [excess, if_pos h2, if_pos (show 1 ≤ n by omega)] at hh
          omega
        · rintro (hh | ⟨hh, -⟩)
          · exact hh
          · exact absurd h3 hh
        · intro _ _; rfl
      · rw [if_neg h3]
        refine ⟨2 + (n - 2).toNat, ?_, by omega, ?_, ?_, ?_⟩
        · rw [fold _ (s.obj.setTensor s.obj.kraus s.obj.kraus) 2 (by omega)]
          · rw [List.length_range]; rfl
          · simp only [KrausObj.setTensor]; rfl
          · exact h.sp
          · simp only [KrausObj.setTensor]
            rw [if_pos h.sp]
        · intro _
          simp only [excess, if_pos h2]
          split <;> omega
        · intro _; omega
        · intro _ hh; exact absurd hh h3
    · rw [if_neg h2]
      have hn : n = s.cur := by omega
      refine ⟨p, h.conj, h.pos, ?_, ?_, ?_⟩
      · simp only [excess, if_neg h2]
        intro hh
        rw [hn] at hh ⊢
        exact h.eq hh
      · rintro (hh | ⟨-, hh⟩)
        · exact hh
        · exact absurd hn hh
      · intro _ _; rfl

theorem update_sparse {s : KrausInt} {x : ℤ} {p : ℕ} (h : SparseInt s x p) (n : ℤ) :
    ∃ p', SparseInt (s.update n).2 (excess s.cur x [n]) p' ∧ (2 ≤ p ∨ (n ≠ 1 ∧ n ≠ s.cur) → 2 ≤ p') ∧
      (s.cur = 1 → n = 1 → p' = p) ∧ ((p' : ℤ) = n + excess s.cur x [n] → (s.update n).1 = .ok ()) := by
  obtain ⟨p', h1, h2, h3, h4, h5⟩ := retensor_conj h n
  obtain ⟨r1, r2⟩ := KrausInt.retensor_holds h.base n
  obtain ⟨k1, k2, k3, -⟩ := KrausInt.update_holds h.base n
  have hs : (s.retensor n).sparse = true := r2.2.1.trans h.sp
  have hconj : (s.update n).2.obj.nthConj = (s.retensor n).nthConj := by
    unfold KrausInt.update
    rcases (s.retensor n).exchange with x | x <;> rfl
  have hx : (p' : ℤ) = n + excess s.cur x [n] → ∃ E, (s.retensor n).exchange = .ok E ∧
      Arr3.tensordot (s.retensor n).nth.conjT (s.retensor n).nth = .ok E := by
    intro hp
    obtain ⟨E, hE⟩ := tensordot_conj (s.retensor n).nth
    refine ⟨E, ?_, hE⟩
    unfold KrausObj.exchange
    rw [if_pos hs, h1, ← hE, r1, ← hp, Int.toNat_natCast]
  refine ⟨p', ⟨k1, k3.2.1.trans h.sp, ?_, h2, ?_, ?_⟩, h4, h5, ?_⟩
  · rw [hconj, h1, k3.1]
  · rw [k2]; exact h3
  · rw [k2]
    intro hp
    obtain ⟨E, e1, e2⟩ := hx hp
    unfold KrausInt.update
    rw [e1]
    exact e2
  · intro hp
    obtain ⟨E, e1, e2⟩ := hx hp
    unfold KrausInt.update
    rw [e1]

theorem sync_sparse {s : KrausInt} {x : ℤ} {p : ℕ} (h : SparseInt s x p) (n : ℤ) :
    ∃ p', SparseInt (s.sync n).2 (excess s.cur x [n]) p' ∧ (2 ≤ p ∨ (n ≠ 1 ∧ n ≠ s.cur) → 2 ≤ p') ∧
      (s.cur = 1 → n = 1 → p' = p) ∧ ((p' : ℤ) = n + excess s.cur x [n] → (s.sync n).1 = .ok ()) := by
  unfold KrausInt.sync
  by_cases hc : n ≠ s.cur
  · rw [if_pos hc]
    exact update_sparse h n
  · push Not at hc
    rw [if_neg (by simp [hc])]
    refine ⟨p, ?_, ?_, fun _ _ => rfl, fun _ => rfl⟩
    · simp only [excess, hc, lt_irrefl, if_false]
      exact h
    · rintro (hh | ⟨-, hh⟩)
      · exact hh
      · exact absurd hc hh

theorem history_sparse {s : KrausInt} {x : ℤ} {p : ℕ} (h : SparseInt s x p) (hcur : s.cur = 1 ∨ 2 ≤ p) (calls : List KrausInt.Call) :
    ∃ p', SparseInt (s.history calls) (excess s.cur x (calls.map KrausInt.Call.uses)) p' ∧
      ((s.history calls).cur = 1 ∨ 2 ≤ p') ∧
      (2 ≤ p ∨ (∃ c ∈ calls, c.uses ≠ 1) → 2 ≤ p') ∧ (s.cur = 1 → (∀ c ∈ calls, c.uses = 1) → p' = p ∧ (s.history calls).cur = 1) := by
  induction calls generalizing s x p with
  | nil =>
    exact ⟨p, h, hcur, fun hh => hh.elim id fun ⟨c, hc, _⟩ => absurd hc (by simp), fun hc _ => ⟨rfl, hc⟩⟩
  | cons c l ih =>
    obtain ⟨p1, a1, a2, a3, a4⟩ : ∃ p', SparseInt (c.after s) (excess s.cur x [c.uses]) p' ∧
        (2 ≤ p ∨ (c.uses ≠ 1 ∧ c.uses ≠ s.cur) → 2 ≤ p') ∧ (s.cur = 1 → c.uses = 1 → p' = p) ∧ (c.after s).cur = c.uses := by
      cases c with
      | use n =>
        obtain ⟨p', g1, g2, g3, -⟩ := sync_sparse h n
        exact ⟨p', g1, g2, g3, (KrausInt.sync_holds h.base n).2.1⟩
      | update n =>
        obtain ⟨p', g1, g2, g3, -⟩ := update_sparse h n
        exact ⟨p', g1, g2, g3, (KrausInt.update_holds h.base n).2.1⟩
    have hone : c.uses ≠ 1 → 2 ≤ p1 := by
      intro hne
      refine a2 ?_
      rcases hcur with hc | hp
      · right; exact ⟨hne, by rw [hc]; exact hne⟩
      · left; exact hp
    obtain ⟨p2, b1, b2, b3, b4⟩ := ih a1 (by
      by_cases hu : c.uses = 1
      · left; rw [a4, hu]
      · right; exact hone hu)
    refine ⟨p2, ?_, b2, ?_, ?_⟩
    · rw [a4] at b1
      rw [List.map_cons, show c.uses :: l.map KrausInt.Call.uses = [c.uses] ++ l.map KrausInt.Call.uses from rfl,
        excess_append s.cur x [c.uses]]
      exact b1
    · rintro (hp | ⟨c', hc', hne⟩)
      · exact b3 (Or.inl (a2 (Or.inl hp)))
      · rcases List.mem_cons.mp hc' with rfl | hc'
        · exact b3 (Or.inl (hone hne))
        · exact b3 (Or.inr ⟨c', hc', hne⟩)
    · intro hc hall
      have hu := hall c (by simp)
      obtain ⟨e1, e2⟩ := b4 (by rw [a4, hu]) fun c' hc' => hall c' (by simp [hc'])
      exact ⟨e1.trans (a3 hc hu), e2⟩

theorem reach_sparse (h : QChan.init true ops a b d e orth = .ok o) (calls : List KrausInt.Call) (n f : ℤ)
    (hf : Spec.CopiesApplied (calls.map KrausInt.Call.uses ++ [n]) f) :
    let s := ((KrausInt.start o).history calls).sync n
    ∃ p : ℕ, 1 ≤ p ∧ s.2.obj.nthConj = (powArr ops p).conjT ∧ (f ≠ 1 → (p : ℤ) = f) ∧
      ((∃ c ∈ calls, c.uses ≠ 1) → 2 ≤ p) ∧ ((∀ c ∈ calls, c.uses = 1) → n = 1 → p = 1) ∧
      ((p : ℤ) = f → s.1 = .ok () ∧ Holds { s.2.obj with curN := f.toNat } f.toNat) := by
  obtain ⟨h1, h2, h3, -⟩ := qchanInit_ok h
  have h0 : SparseInt (KrausInt.start o) 0 1 :=
    ⟨start_holds h1, h3, by
      show o.nthConj = (powArr o.kraus 1).conjT
      rw [h1.conj h3, h1.nth], le_rfl, fun hh => absurd (by simp [KrausInt.start]) hh, fun _ => h1.exch⟩
  obtain ⟨p, g1, g2, g3, g4⟩ := history_sparse h0 (Or.inl rfl) calls
  obtain ⟨p', k1, k2, k3, k4⟩ := sync_sparse g1 n
  obtain ⟨r1, r2, r3⟩ := KrausInt.history_holds (start_holds h1) calls
  obtain ⟨-, t2, t3, -⟩ := KrausInt.sync_holds r1 n
  have hx := copies_of hf
  rw [excess_append, last_drop] at hx
  simp only [List.getLast_singleton] at hx
  change f = n + excess (((KrausInt.start o).cur :: calls.map KrausInt.Call.uses).getLast (by simp))
    (excess (KrausInt.start o).cur 0 (calls.map KrausInt.Call.uses)) [n] at hx
  rw [← r2] at hx
  have hk := (r3.trans t3).1.trans h2
  refine ⟨p', k1.pos, by rw [k1.conj, hk], ?_, fun hc => k2 (Or.inl (g3 (Or.inr hc))), ?_, ?_⟩
  · intro hne
    have := k1.eq
    rw [t2, ← hx] at this
    exact this hne
  · intro hall hn
    obtain ⟨e1, e2⟩ := g4 rfl hall
    rw [k3 e2 hn, e1]
  · intro hp
    have hn := k1.base.nth
    have hE := k1.exch
    have hC := k1.conj
    rw [t2, ← hx] at hn hE
    refine ⟨k4 (by rw [← hx]; exact hp), rfl, hn, fun _ => ?_, hE hp⟩
    show _ = (((KrausInt.start o).history calls).sync n).2.obj.nth.conjT
    rw [hn, ← hp, Int.toNat_natCast]
    exact hC

/-- C130 for sparse objects: after any calls with any integers, a sparse channel serves a valid request exactly if a dense one
does and, when a single use is asked for, no call asked for anything else before. -/
theorem C130_sparse_iff (h : QChan.init true ops a b d e orth = .ok o) (hd : 2 ≤ d ^ a) (calls : List KrausInt.Call)
    (n : ℕ) (hn : 1 ≤ n) (rho : Arr ℂ) (hr : rho.rows = (d ^ a) ^ n) (hc : rho.cols = (d ^ a) ^ n) :
    (∃ out, (((KrausInt.start o).history calls).channel rho n false).1 = .ok out) ↔
      (¬ ∃ pre m post, calls.map KrausInt.Call.uses ++ [(n : ℤ)] = pre ++ m :: post ∧ m ≤ 0 ∧
        (m :: post).Pairwise (· ≤ ·)) ∧ (n = 1 → ∀ c ∈ calls, c.uses = 1) := by
  obtain ⟨f, hf, -⟩ := C130_rule (calls.map KrausInt.Call.uses ++ [(n : ℤ)])
  have h2 := copies_of hf
  rw [last_drop] at h2
  simp only [List.getLast_singleton] at h2
  rw [← excess_ne_zero_iff, not_not]
  have hnn := excess_nonneg 1 0 (calls.map KrausInt.Call.uses ++ [(n : ℤ)]) le_rfl
  obtain ⟨f1, f2, f3, f4, -⟩ := reach_int h calls n f hf
  obtain ⟨p, p0, p1, p2, p3, p4, p5⟩ := reach_sparse h calls n f hf
  obtain ⟨-, -, -, -, -, -, -, -, -, q1, q2, -⟩ := qchanInit_ok h
  have hinj := fun x y (hxy : (d ^ a) ^ x = (d ^ a) ^ y) => Nat.pow_right_injective hd hxy
  unfold KrausInt.channel
  generalize hS : ((KrausInt.start o).history calls).sync n = S at *
  obtain ⟨r, s⟩ := S
  simp only at f2 f3 f4 p1 p5
  constructor
  · rintro ⟨out, hout⟩
    rcases r with x | x
    · cases hout
    simp only [KrausObj.channel] at hout
    have hfac : s.obj.factors false = (powArr ops f.toNat, (powArr ops p).conjT) := by
      unfold KrausObj.factors
      simp [f3, f4, p1]
    rw [hfac] at hout
    obtain ⟨-, -, d3⟩ := powArr_dims ops (n := f.toNat) (by omega)
    obtain ⟨-, -, d3'⟩ := powArr_dims ops (n := p) p0
    have hfn : f.toNat = n := by
      by_contra hne
      have hm : Arr3.matmul2 (powArr ops f.toNat) rho = .error .value := by
        unfold Arr3.matmul2
        rw [if_neg]
        rw [d3, q1, hr]
        exact fun hx => hne (hinj _ _ hx)
      rw [hm] at hout
      cases hout
    refine ⟨by omega, fun hn1 c hcm => ?_⟩
    by_contra hne
    have hp2 := p3 ⟨c, hcm, hne⟩
    unfold Arr3.matmul2 at hout
    split_ifs at hout with hx
    · simp only [bind, Except.bind] at hout
      unfold Arr3.matmul3 at hout
      rw [if_neg] at hout
      · cases hout
      · rintro ⟨hy, -⟩
        change rho.cols = (powArr ops p).cols at hy
        rw [d3', q1, hc] at hy
        have := hinj _ _ hy
        omega
    · cases hout
  · rintro ⟨hex, hall⟩
    have hfn : f = n := by omega
    have hpf : (p : ℤ) = f := by
      by_cases h1 : f = 1
      · rw [p4 (hall (by omega)) (by omega), h1]
        rfl
      · exact p2 h1
    obtain ⟨k1, k2⟩ := p5 hpf
    subst k1
    obtain ⟨out, e1, -⟩ := channel_holds (by omega) k2 rho (by simp only [f2, q1, hr, hfn, Int.toNat_natCast])
      (by simp only [f2, q1, hc, hfn, Int.toNat_natCast])
    exact ⟨out, e1⟩

/-- C130 for sparse objects: whenever a valid request is served, the result is right. -/
theorem C130_sparse_value (h : QChan.init true ops a b d e orth = .ok o) (hd : 2 ≤ d ^ a) (calls : List KrausInt.Call)
    (n : ℕ) (hn : 1 ≤ n) (rho : Arr ℂ) (hr : rho.rows = (d ^ a) ^ n) (hc : rho.cols = (d ^ a) ^ n) (out : Arr ℂ)
    (hout : (((KrausInt.start o).history calls).channel rho n false).1 = .ok out) :
    out.rows = (e ^ b) ^ n ∧ out.cols = (e ^ b) ^ n ∧ out.mat ((e ^ b) ^ n) ((e ^ b) ^ n) =
      Spec.applyKraus (Spec.tensorPow (ops.ops ops.len (e ^ b) (d ^ a)) n) (rho.mat ((d ^ a) ^ n) ((d ^ a) ^ n)) := by
  obtain ⟨hx, hall⟩ := (C130_sparse_iff h hd calls n hn rho hr hc).mp ⟨out, hout⟩
  rw [← excess_ne_zero_iff, not_not] at hx
  obtain ⟨f, hf, -⟩ := C130_rule (calls.map KrausInt.Call.uses ++ [(n : ℤ)])
  have h2 := copies_of hf
  rw [last_drop] at h2
  simp only [List.getLast_singleton] at h2
  obtain ⟨f1, f2, f3, f4, -⟩ := reach_int h calls n f hf
  obtain ⟨p, p0, p1, p2, p3, p4, p5⟩ := reach_sparse h calls n f hf
  obtain ⟨-, -, -, -, -, -, -, -, -, q1, q2, -⟩ := qchanInit_ok h
  have hfn : f = n := by omega
  have hpf : (p : ℤ) = f := by
    by_cases h1 : f = 1
    · rw [p4 (hall (by omega)) (by omega), h1]
      rfl
    · exact p2 h1
  unfold KrausInt.channel at hout
  generalize hS : ((KrausInt.start o).history calls).sync n = S at *
  obtain ⟨r, s⟩ := S
  simp only at f2 f3 f4 p1 p5
  obtain ⟨k1, k2⟩ := p5 hpf
  subst k1
  rw [hfn, Int.toNat_natCast] at k2
  obtain ⟨out', e1, e2, e3, e4⟩ := channel_holds hn k2 rho (by simp only [f2, q1, hr]) (by simp only [f2, q1, hc])
  dsimp only at e1 e2 e3 e4 hout
  have e1' : s.obj.channel rho false = .ok out' := e1
  rw [e1'] at hout
  cases hout
  rw [f2] at e2 e3 e4
  rw [q2] at e2 e3 e4
  rw [q1] at e4
  exact ⟨e2, e3, e4⟩

/-- A sparse dephasing channel asked for `-1`, `3`, `2` uses serves two uses and afterwards no single use. -/
example : ∃ o, QChan.init true dephOps 1 1 2 2 [] = .ok o ∧
    (∃ out, (((KrausInt.start o).history [.use (-1), .use 3]).channel (Arr.eye 4) 2 false).1 = .ok out) ∧
    ¬ ∃ out, (((KrausInt.start o).history [.use (-1), .use 3, .use 2]).channel (Arr.eye 2) 1 false).1 = .ok out := by
  obtain ⟨o, ho⟩ := deph_ok true []
  refine ⟨o, ho, ?_, ?_⟩
  · refine (C130_sparse_iff ho (by decide) _ 2 (by decide) _ rfl rfl).mpr ⟨?_, by decide⟩
    rw [← excess_ne_zero_iff]
    decide
  · intro hh
    have := ((C130_sparse_iff ho (by decide) _ 1 le_rfl _ rfl rfl).mp hh).2 rfl (.use 2) (by simp)
    exact absurd this (by decide)

end PyQ
