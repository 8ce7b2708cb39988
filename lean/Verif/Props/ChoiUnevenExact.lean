import Verif.Props.ChoiUneven

/-!
# C118, exactly: what `channel` of a Choi object returns when it has more inputs than outputs

With `M` outputs and `N > M` inputs the particles `M, ..., 2 M - 1` that `channel` keeps are inputs, as long as there are inputs, and
the first outputs after them.
-/

namespace PyQ

open Matrix

namespace ChoiObj

theorem splitIndex_map_false (l : List ℕ) (rest : List (ℕ × Bool)) (r : ℕ) :
    splitIndex (l.map (fun d => (d, false)) ++ rest) r =
      ((splitIndex rest (r / l.prod)).1, (splitIndex rest (r / l.prod)).2 * l.prod + r % l.prod) := by
  induction l generalizing r with
  | nil => simp [Nat.mod_one]
  | cons d l ih =>
    rw [List.map_cons, List.cons_append]
    simp only [splitIndex, Bool.false_eq_true, if_false, List.prod_cons]
    rw [ih, Nat.div_div_eq_div_mul, Nat.mod_mul]
    congr 1
    ring

theorem splitIndex_map_true (l : List ℕ) (rest : List (ℕ × Bool)) (r : ℕ) :
    splitIndex (l.map (fun d => (d, true)) ++ rest) r =
      ((splitIndex rest (r / l.prod)).1 * l.prod + r % l.prod, (splitIndex rest (r / l.prod)).2) := by
  induction l generalizing r with
  | nil => simp [Nat.mod_one]
  | cons d l ih =>
    rw [List.map_cons, List.cons_append]
    simp only [splitIndex, if_true, List.prod_cons]
    rw [ih, Nat.div_div_eq_div_mul, Nat.mod_mul]
    congr 1
    ring

/-- The factors of a partial trace that keeps a segment of the particles. -/
theorem ptrace_factors_middle (l₁ l₂ l₃ : List ℕ) :
    ((List.range (l₁ ++ l₂ ++ l₃).length).map fun i =>
      ((l₁ ++ l₂ ++ l₃).getD i 0, decide (i ∈ List.range' l₁.length l₂.length))).reverse =
      l₃.reverse.map (fun d => (d, false)) ++ (l₂.reverse.map (fun d => (d, true)) ++ l₁.reverse.map (fun d => (d, false))) := by
  have h : (List.range (l₁ ++ l₂ ++ l₃).length).map (fun i =>
      ((l₁ ++ l₂ ++ l₃).getD i 0, decide (i ∈ List.range' l₁.length l₂.length))) =
      l₁.map (fun d => (d, false)) ++ (l₂.map (fun d => (d, true)) ++ l₃.map (fun d => (d, false))) := by
    apply List.ext_getElem
    · simp
    · intro i h1 h2
      simp only [List.length_map, List.length_range] at h1
      simp only [List.getElem_map, List.getElem_range, List.getElem_append, List.length_map, List.mem_range'_1]
      rw [List.getD_eq_getElem?_getD, List.getElem?_eq_getElem h1, Option.getD_some]
      simp only [List.getElem_append, List.length_append]
      by_cases hi : i < l₁.length
      · simp [hi, show i < l₁.length + l₂.length by omega]
      · by_cases hi' : i < l₁.length + l₂.length
        · simp [hi, hi', show i - l₁.length < l₂.length by omega]; omega
        · simp [hi, hi', show ¬ i - l₁.length < l₂.length by omega, Nat.sub_sub]
  rw [h, List.reverse_append, List.reverse_append, List.append_assoc, List.map_reverse, List.map_reverse, List.map_reverse]

/-- The partial trace that keeps a segment of the particles. -/
theorem ptrace_middle {M : Arr ℂ} {l₁ l₂ l₃ : List ℕ} {p₁ p₂ p₃ : ℕ} (h₁ : l₁.prod = p₁) (h₂ : l₂.prod = p₂) (h₃ : l₃.prod = p₃)
    (hr : M.rows = p₁ * p₂ * p₃) (hc : M.cols = p₁ * p₂ * p₃) :
    ∃ out, ptrace M (l₁ ++ l₂ ++ l₃) (List.range' l₁.length l₂.length) = .ok out ∧ out.rows = p₂ ∧ out.cols = p₂ ∧
      ∀ x x' : Fin p₂, out.get x x' = ∑ u : Fin p₁, ∑ z : Fin p₃,
        M.get (finProdFinEquiv (finProdFinEquiv (u, x), z)) (finProdFinEquiv (finProdFinEquiv (u, x'), z)) := by
  have key1 : ∀ {p r : ℕ} (y : Fin p) (x : Fin r), (finProdFinEquiv (y, x) : ℕ) % r = x := by
    intro p r y x
    rw [finProdFinEquiv_apply_val, Nat.add_mul_mod_self_left, Nat.mod_eq_of_lt x.2]
  have key2 : ∀ {p r : ℕ} (y : Fin p) (x : Fin r), (finProdFinEquiv (y, x) : ℕ) / r = y := by
    intro p r y x
    rw [finProdFinEquiv_apply_val, Nat.add_mul_div_left _ _ (lt_of_le_of_lt (Nat.zero_le _) x.2),
      Nat.div_eq_of_lt x.2, zero_add]
  unfold ptrace
  rw [if_pos (by
    intro k hk
    rw [List.mem_range'_1] at hk
    rw [List.length_append, List.length_append]
    omega)]
  simp only [ptrace_factors_middle]
  have hprod : ((((l₃.reverse.map (fun d => (d, false)) ++ (l₂.reverse.map (fun d => (d, true)) ++
      l₁.reverse.map (fun d => (d, false)))).filter fun f : ℕ × Bool => f.2)).map Prod.fst).prod = p₂ := by
    rw [List.filter_append, List.filter_append, List.filter_eq_nil_iff.mpr, List.filter_eq_self.mpr, List.filter_eq_nil_iff.mpr,
      List.nil_append, List.append_nil, List.map_map, ← h₂]
    · refine Eq.trans ?_ (List.prod_reverse l₂)
      congr 1
      exact List.map_id _
    all_goals
      intro f hf
      rw [List.mem_map] at hf
      obtain ⟨d, -, rfl⟩ := hf
      simp
  refine ⟨_, rfl, hprod, hprod, ?_⟩
  intro x x'
  have hsplit : ∀ (u : Fin p₁) (x : Fin p₂) (z : Fin p₃), splitIndex (l₃.reverse.map (fun d => (d, false)) ++
      (l₂.reverse.map (fun d => (d, true)) ++ l₁.reverse.map (fun d => (d, false))))
        (finProdFinEquiv (finProdFinEquiv (u, x), z)) = ((x : ℕ), (u : ℕ) * p₃ + z) := by
    intro u x z
    have hlast : ∀ r, splitIndex (l₁.reverse.map fun d => (d, false)) r = (0, r % p₁) := by
      intro r
      have := splitIndex_map_false l₁.reverse [] r
      rw [List.append_nil, List.prod_reverse, h₁] at this
      rw [this]
      simp [splitIndex]
    rw [splitIndex_map_false, splitIndex_map_true, hlast, List.prod_reverse, List.prod_reverse, h₂, h₃, key1, key2, key1, key2,
      zero_mul, zero_add, Nat.mod_eq_of_lt u.2]
  have hinj : ∀ (u u' : Fin p₁) (z z' : Fin p₃), (u : ℕ) * p₃ + z = (u' : ℕ) * p₃ + z' → u = u' ∧ z = z' := by
    intro u u' z z' hh
    have e1 : (finProdFinEquiv (u, z) : ℕ) = finProdFinEquiv (u', z') := by
      rw [finProdFinEquiv_apply_val, finProdFinEquiv_apply_val]
      linarith [mul_comm (u : ℕ) p₃, mul_comm (u' : ℕ) p₃]
    have e2 := finProdFinEquiv.injective (Fin.ext e1)
    exact ⟨congrArg Prod.fst e2, congrArg Prod.snd e2⟩
  simp only [hr, hc]
  rw [Finset.sum_range, Spec.sum_index, Spec.sum_index]
  refine Finset.sum_congr rfl fun u _ => ?_
  rw [Finset.sum_eq_single x]
  · refine Finset.sum_congr rfl fun z _ => ?_
    rw [Finset.sum_range, Spec.sum_index, Spec.sum_index, Finset.sum_eq_single u]
    · rw [Finset.sum_eq_single x']
      · rw [Finset.sum_eq_single z]
        · rw [hsplit, hsplit, if_pos ⟨rfl, rfl, rfl⟩]
        · intro z' _ hz'
          rw [hsplit, hsplit, if_neg]
          rintro ⟨-, -, hh⟩
          exact hz' (hinj _ _ _ _ hh).2.symm
        · simp
      · intro y _ hy
        refine Finset.sum_eq_zero fun z' _ => ?_
        rw [hsplit, hsplit, if_neg]
        rintro ⟨-, hh, -⟩
        exact hy (Fin.ext hh)
      · simp
    · intro u' _ hu'
      refine Finset.sum_eq_zero fun y _ => Finset.sum_eq_zero fun z' _ => ?_
      rw [hsplit, hsplit, if_neg]
      rintro ⟨-, -, hh⟩
      exact hu' (hinj _ _ _ _ hh).1.symm
    · simp
  · intro y _ hy
    refine Finset.sum_eq_zero fun z _ => ?_
    rw [Finset.sum_range]
    refine Finset.sum_eq_zero fun t _ => ?_
    rw [hsplit, if_neg]
    rintro ⟨hh, -, -⟩
    exact hy (Fin.ext hh)
  · simp

/-- The entries of `choi.dot(np.kron(rho.T, I))`. -/
theorem dot_kron_eye {C rho : Arr ℂ} {n m : ℕ} (hc : C.cols = n * m) (hr : rho.rows = n) (hrc : rho.cols = n) :
    ∃ P, C.dot (rho.transpose.kron (Arr.eye m)) = .ok P ∧ P.rows = C.rows ∧ P.cols = n * m ∧
      ∀ (i : ℕ) (v : Fin n) (z : Fin m), P.get i (finProdFinEquiv (v, z)) =
        ∑ y : Fin n, C.get i (finProdFinEquiv (y, z)) * rho.get v y := by
  have key1 : ∀ {p r : ℕ} (y : Fin p) (x : Fin r), (finProdFinEquiv (y, x) : ℕ) % r = x := by
    intro p r y x
    rw [finProdFinEquiv_apply_val, Nat.add_mul_mod_self_left, Nat.mod_eq_of_lt x.2]
  have key2 : ∀ {p r : ℕ} (y : Fin p) (x : Fin r), (finProdFinEquiv (y, x) : ℕ) / r = y := by
    intro p r y x
    rw [finProdFinEquiv_apply_val, Nat.add_mul_div_left _ _ (lt_of_le_of_lt (Nat.zero_le _) x.2),
      Nat.div_eq_of_lt x.2, zero_add]
  have hk : (rho.transpose.kron (Arr.eye m)).rows = n * m := by rw [← hrc]; rfl
  have hk' : (rho.transpose.kron (Arr.eye m)).cols = n * m := by rw [← hr]; rfl
  refine ⟨C.mul (rho.transpose.kron (Arr.eye m)), by unfold Arr.dot; rw [if_pos (by rw [hk, hc])], rfl, hk', ?_⟩
  intro i v z
  change ∑ k ∈ Finset.range C.cols, _ = _
  rw [hc, Finset.sum_range, Spec.sum_index]
  refine Finset.sum_congr rfl fun y _ => ?_
  have hent : ∀ t : Fin m, (rho.transpose.kron (Arr.eye m)).get (finProdFinEquiv (y, t)) (finProdFinEquiv (v, z)) =
      rho.get v y * if t = z then 1 else 0 := by
    intro t
    change rho.get (_ / m) (_ / m) * (if _ % m = _ % m then 1 else 0) = _
    rw [key1, key1, key2, key2]
    simp only [Fin.ext_iff]
  simp only [hent]
  rw [Finset.sum_eq_single z]
  · rw [if_pos rfl, mul_one]
  · intro t _ ht
    rw [if_neg ht, mul_zero, mul_zero]
  · simp

end ChoiObj

variable {q : QutipChecks} {C : Arr ℂ} {b c f d e : ℕ} {o : ChoiObj}

/-- **C118 refuted**, at least twice as many inputs as outputs, of any dimensions: whatever the channel is, `channel` returns the transpose
of the state of the inputs `M, ..., 2 M - 1` (with `u` the inputs before and `w` the inputs after them). -/
theorem C118_inputs_refuted (h : ChoiObj.init q C (b + b + c) b d e = .ok o) (hsq : C.rows = C.cols)
    (htp : Spec.traceOutput (C.mat (d ^ b * d ^ b * d ^ c * e ^ b) (d ^ b * d ^ b * d ^ c * e ^ b)) = 1)
    (rho : Arr ℂ) (hr : rho.rows = d ^ (b + b + c)) (hc : rho.cols = d ^ (b + b + c)) :
    ∃ out, ChoiQ.channel o rho 1 false = .ok out ∧ out.rows = d ^ b ∧ out.cols = d ^ b ∧
      ∀ x x' : Fin (d ^ b), out.mat (d ^ b) (d ^ b) x x' = ∑ u : Fin (d ^ b), ∑ w : Fin (d ^ c),
        rho.mat (d ^ b * d ^ b * d ^ c) (d ^ b * d ^ b * d ^ c)
          (finProdFinEquiv (finProdFinEquiv (u, x'), w)) (finProdFinEquiv (finProdFinEquiv (u, x), w)) := by
  obtain ⟨rfl, hcols⟩ := choiInit_ok h
  rw [pow_add, pow_add] at hcols hr hc
  obtain ⟨P, p1, p2, p3, p4⟩ := ChoiObj.dot_kron_eye (C := C) (rho := rho) (n := d ^ b * d ^ b * d ^ c) (m := e ^ b)
    (by rw [hcols]; ring) hr hc
  obtain ⟨out, o1, o2, o3, o4⟩ := ChoiObj.ptrace_middle (M := P) (l₁ := List.replicate b d) (l₂ := List.replicate b d)
    (l₃ := List.replicate c d ++ List.replicate b e) (p₁ := d ^ b) (p₂ := d ^ b) (p₃ := d ^ c * e ^ b)
    (by simp) (by simp) (by simp) (by rw [p2, hsq, hcols]; ring) (by rw [p3]; ring)
  have hl : List.replicate (b + b + c) d ++ List.replicate b e = List.replicate b d ++ List.replicate b d ++
      (List.replicate c d ++ List.replicate b e) := by
    rw [List.replicate_add, List.replicate_add]
    simp only [List.append_assoc]
  refine ⟨out, ?_, o2, o3, ?_⟩
  · unfold ChoiQ.channel ChoiObj.channel ChoiObj.outputDim
    simp only [p1]
    rw [List.length_replicate] at o1
    show ChoiObj.ptrace P (List.replicate (b + b + c) d ++ List.replicate b e) (List.range' b b) = _
    rw [hl]
    exact o1
  intro x x'
  rw [Arr.mat_apply, o4]
  refine Finset.sum_congr rfl fun u _ => ?_
  rw [Spec.sum_index]
  refine Finset.sum_congr rfl fun w _ => ?_
  have hassoc : ∀ (v : Fin (d ^ b * d ^ b)) (w : Fin (d ^ c)) (t : Fin (e ^ b)),
      (finProdFinEquiv (v, finProdFinEquiv (w, t)) : ℕ) = (finProdFinEquiv (finProdFinEquiv (v, w), t) : ℕ) := by
    intro v w t
    simp only [finProdFinEquiv_apply_val]
    ring
  simp only [hassoc, p4]
  rw [Finset.sum_comm, Finset.sum_eq_single (finProdFinEquiv (finProdFinEquiv (u, x), w))]
  · rw [← Finset.sum_mul]
    have := congrFun (congrFun htp (finProdFinEquiv (finProdFinEquiv (u, x), w))) (finProdFinEquiv (finProdFinEquiv (u, x), w))
    rw [Matrix.one_apply_eq] at this
    refine (congrArg (· * _) this).trans ?_
    rw [one_mul]
    rfl
  · intro y _ hy
    rw [← Finset.sum_mul]
    have := congrFun (congrFun htp (finProdFinEquiv (finProdFinEquiv (u, x), w))) y
    rw [Matrix.one_apply_ne (Ne.symm hy)] at this
    refine (congrArg (· * _) this).trans ?_
    rw [zero_mul]
  · simp

/-- **C118 refuted**, more inputs than outputs but fewer than twice as many (`M = c + f` outputs, `N = M + c` inputs): `channel` returns a
state of `c` inputs and `f` outputs.  It is the Choi matrix times the transposed state, traced over the first `M` inputs `u` and the last
`c` outputs `z`. -/
theorem C118_mixed_refuted (h : ChoiObj.init q C (b + c) b d e = .ok o) (hb : b = c + f) (hsq : C.rows = C.cols)
    (rho : Arr ℂ) (hr : rho.rows = d ^ (b + c)) (hc : rho.cols = d ^ (b + c)) :
    ∃ out, ChoiQ.channel o rho 1 false = .ok out ∧ out.rows = d ^ c * e ^ f ∧ out.cols = d ^ c * e ^ f ∧
      ∀ (x x' : Fin (d ^ c)) (y y' : Fin (e ^ f)),
        out.mat (d ^ c * e ^ f) (d ^ c * e ^ f) (finProdFinEquiv (x, y)) (finProdFinEquiv (x', y')) =
        ∑ u : Fin (d ^ b), ∑ z : Fin (e ^ c), ∑ w : Fin (d ^ b * d ^ c),
          C.mat (d ^ b * d ^ c * (e ^ f * e ^ c)) (d ^ b * d ^ c * (e ^ f * e ^ c))
            (finProdFinEquiv (finProdFinEquiv (u, x), finProdFinEquiv (y, z))) (finProdFinEquiv (w, finProdFinEquiv (y', z))) *
          rho.mat (d ^ b * d ^ c) (d ^ b * d ^ c) (finProdFinEquiv (u, x')) w := by
  obtain ⟨rfl, hcols⟩ := choiInit_ok h
  have he : e ^ b = e ^ f * e ^ c := by rw [hb, add_comm, pow_add]
  rw [pow_add] at hcols hr hc
  rw [he] at hcols
  obtain ⟨P, p1, p2, p3, p4⟩ := ChoiObj.dot_kron_eye (C := C) (rho := rho) (n := d ^ b * d ^ c) (m := e ^ f * e ^ c)
    (by rw [hcols]; ring) hr hc
  obtain ⟨out, o1, o2, o3, o4⟩ := ChoiObj.ptrace_middle (M := P) (l₁ := List.replicate b d) (l₂ := List.replicate c d ++ List.replicate f e)
    (l₃ := List.replicate c e) (p₁ := d ^ b) (p₂ := d ^ c * e ^ f) (p₃ := e ^ c)
    (by simp) (by simp) (by simp) (by rw [p2, hsq, hcols]; ring) (by rw [p3]; ring)
  have hl : List.replicate (b + c) d ++ List.replicate b e = List.replicate b d ++ (List.replicate c d ++ List.replicate f e) ++
      List.replicate c e := by
    have : List.replicate b e = List.replicate f e ++ List.replicate c e := by
      rw [← List.replicate_add, hb, add_comm]
    rw [this, List.replicate_add b c]
    simp only [List.append_assoc]
  refine ⟨out, ?_, o2, o3, ?_⟩
  · unfold ChoiQ.channel ChoiObj.channel ChoiObj.outputDim
    simp only [he, p1]
    rw [List.length_replicate, List.length_append, List.length_replicate, List.length_replicate, ← hb] at o1
    show ChoiObj.ptrace P (List.replicate (b + c) d ++ List.replicate b e) (List.range' b b) = _
    rw [hl]
    exact o1
  intro x x' y y'
  rw [Arr.mat_apply, o4]
  refine Finset.sum_congr rfl fun u _ => Finset.sum_congr rfl fun z _ => ?_
  have hassoc : ∀ (x : Fin (d ^ c)) (y : Fin (e ^ f)),
      (finProdFinEquiv (finProdFinEquiv (u, finProdFinEquiv (x, y)), z) : ℕ) =
        (finProdFinEquiv (finProdFinEquiv (u, x), finProdFinEquiv (y, z)) : ℕ) := by
    intro x y
    simp only [finProdFinEquiv_apply_val]
    ring
  rw [hassoc, hassoc, p4]
  rfl

/-- The channel that forgets a state of dimension `n` and prepares the first basis state of dimension `m`. -/
def restartOps (n m : ℕ) : Fin n → Matrix (Fin m) (Fin n) ℂ := fun k x y => if (x : ℕ) = 0 ∧ y = k then 1 else 0

/-- Its Choi matrix. -/
def restartChoi (n m : ℕ) : Arr ℂ := ⟨n * m, n * m, fun i j => if i = j ∧ i % m = 0 then 1 else 0⟩

theorem restartOps_tp (n m : ℕ) (hm : 0 < m) : Spec.TracePreserving (restartOps n m) := by
  unfold Spec.TracePreserving
  ext y y'
  rw [Matrix.sum_apply]
  simp only [Matrix.mul_apply, Matrix.conjTranspose_apply, restartOps]
  simp only [Matrix.one_apply]
  have : ∀ k : Fin n, ∑ x : Fin m, star (if (x : ℕ) = 0 ∧ y = k then (1 : ℂ) else 0) * (if (x : ℕ) = 0 ∧ y' = k then 1 else 0) =
      if y = k ∧ y' = k then 1 else 0 := by
    intro k
    rw [Finset.sum_eq_single (⟨0, hm⟩ : Fin m)]
    · by_cases h1 : y = k <;> by_cases h2 : y' = k <;> simp [h1, h2]
    · intro x _ hx
      rw [if_neg (fun hh => hx (Fin.ext hh.1)), star_zero, zero_mul]
    · simp
  simp only [this]
  by_cases hy : y = y'
  · subst hy
    simp
  · rw [if_neg hy]
    refine Finset.sum_eq_zero fun k _ => if_neg ?_
    rintro ⟨rfl, rfl⟩
    exact hy rfl

theorem restartChoi_mat (n m : ℕ) : (restartChoi n m).mat (n * m) (n * m) = Spec.choi (restartOps n m) := by
  ext i j
  obtain ⟨⟨y, x⟩, rfl⟩ := finProdFinEquiv.surjective i
  obtain ⟨⟨y', x'⟩, rfl⟩ := finProdFinEquiv.surjective j
  rw [Spec.choi_apply, Arr.mat_apply]
  have hx : (finProdFinEquiv (y, x) : ℕ) % m = x := by
    rw [finProdFinEquiv_apply_val, Nat.add_mul_mod_self_left, Nat.mod_eq_of_lt x.2]
  have he : (finProdFinEquiv (y, x) : ℕ) = finProdFinEquiv (y', x') ↔ y = y' ∧ x = x' := by
    rw [← Fin.ext_iff, finProdFinEquiv.apply_eq_iff_eq, Prod.mk.injEq]
  simp only [restartChoi, hx, he, restartOps]
  rw [Finset.sum_eq_single y]
  · by_cases h1 : (x : ℕ) = 0
    · by_cases h2 : (x' : ℕ) = 0
      · have : x = x' := Fin.ext (h1.trans h2.symm)
        subst this
        by_cases h3 : y' = y
        · simp [h1, h3]
        · simp [h1, h3, Ne.symm h3]
      · have : x ≠ x' := fun hh => h2 (hh ▸ h1)
        simp [h2, this]
    · simp [h1]
  · intro k _ hk
    rw [if_neg (fun hh => hk hh.2.symm), zero_mul]
  · simp

/-- The basis state number `r` of dimension `n`. -/
def basisArr (n r : ℕ) : Arr ℂ := ⟨n, n, fun i j => if i = r ∧ j = r then 1 else 0⟩

/-- **C118 refuted** for every number of outputs and every larger number of inputs, of one dimension `d ≥ 2`: of the channel that
forgets its `N` inputs and prepares `M` outputs in the first basis state, the constructor accepts the Choi matrix; of the basis state in
which exactly input number `M` is one, `channel` returns an `M` particle state whose first particle is one. -/
theorem C118_fewer_outputs_refuted (N : ℕ) (hb : 0 < b) (hN : b < N) (hd : 2 ≤ d) : ∃ (q : QutipChecks) (o : ChoiObj) (out : Arr ℂ),
    ChoiObj.init q (restartChoi (d ^ N) (d ^ b)) N b d d = .ok o ∧ Spec.TracePreserving (restartOps (d ^ N) (d ^ b)) ∧
    (restartChoi (d ^ N) (d ^ b)).mat (d ^ N * d ^ b) (d ^ N * d ^ b) = Spec.choi (restartOps (d ^ N) (d ^ b)) ∧
    ChoiQ.channel o (basisArr (d ^ N) (d ^ (N - b - 1))) 1 false = .ok out ∧ out.rows = d ^ b ∧ out.cols = d ^ b ∧
    out.get (d ^ (b - 1)) (d ^ (b - 1)) = 1 ∧
    out.mat (d ^ b) (d ^ b) ≠
      Spec.applyKraus (restartOps (d ^ N) (d ^ b)) ((basisArr (d ^ N) (d ^ (N - b - 1))).mat (d ^ N) (d ^ N)) := by
  have hd0 : 0 < d := by omega
  have hlt : ∀ {k l : ℕ}, k < l → d ^ k < d ^ l := fun h => Nat.pow_lt_pow_right (by omega) h
  have hio : ChoiObj.init ⟨fun _ _ _ => true, fun _ _ _ => true⟩ (restartChoi (d ^ N) (d ^ b)) N b d d =
      .ok ⟨restartChoi (d ^ N) (d ^ b), N, b, d, d⟩ := by
    unfold ChoiObj.init
    rw [if_neg (by rw [not_ne_iff]; exact mul_comm _ _)]
    rfl
  have hmain : ∃ out, ChoiQ.channel ⟨restartChoi (d ^ N) (d ^ b), N, b, d, d⟩ (basisArr (d ^ N) (d ^ (N - b - 1))) 1 false = .ok out ∧
      out.rows = d ^ b ∧ out.cols = d ^ b ∧ out.get (d ^ (b - 1)) (d ^ (b - 1)) = 1 := by
    rcases Nat.lt_or_ge N (b + b) with hNb | hNb
    · obtain ⟨c, rfl⟩ : ∃ c, N = b + c := ⟨N - b, by omega⟩
      obtain ⟨f, hf⟩ : ∃ f, b = c + f := ⟨b - c, by omega⟩
      obtain ⟨out, h1, h2, h3, h4⟩ := C118_mixed_refuted hio hf rfl (basisArr (d ^ (b + c)) (d ^ (b + c - b - 1))) rfl rfl
      have hp : d ^ c * d ^ f = d ^ b := by rw [hf, pow_add]
      refine ⟨out, h1, by rw [h2, hp], by rw [h3, hp], ?_⟩
      have hx : d ^ (c - 1) < d ^ c := hlt (by omega)
      have hy : 0 < d ^ f := Nat.pow_pos hd0
      have h5 := h4 ⟨_, hx⟩ ⟨_, hx⟩ ⟨0, hy⟩ ⟨0, hy⟩
      rw [Arr.mat_apply] at h5
      have hi : (finProdFinEquiv ((⟨_, hx⟩ : Fin (d ^ c)), (⟨0, hy⟩ : Fin (d ^ f))) : ℕ) = d ^ (b - 1) := by
        rw [finProdFinEquiv_apply_val]
        show 0 + d ^ f * d ^ (c - 1) = _
        rw [zero_add, ← pow_add]
        congr 1
        omega
      rw [hi] at h5
      rw [h5]
      have hu : 0 < d ^ b := Nat.pow_pos hd0
      have hz : 0 < d ^ c := Nat.pow_pos hd0
      have hr : b + c - b - 1 = c - 1 := by omega
      have hmod : d ^ b = d ^ f * d ^ c := by rw [← hp, mul_comm]
      have hent : ∀ (u : Fin (d ^ b)) (z : Fin (d ^ c)) (w : Fin (d ^ b * d ^ c)),
          (restartChoi (d ^ (b + c)) (d ^ b)).mat (d ^ b * d ^ c * (d ^ f * d ^ c)) (d ^ b * d ^ c * (d ^ f * d ^ c))
            (finProdFinEquiv (finProdFinEquiv (u, ⟨_, hx⟩), finProdFinEquiv (⟨0, hy⟩, z)))
              (finProdFinEquiv (w, finProdFinEquiv (⟨0, hy⟩, z))) =
          if finProdFinEquiv (u, ⟨_, hx⟩) = w ∧ (z : ℕ) = 0 then 1 else 0 := by
        intro u z w
        rw [Arr.mat_apply]
        have e1 : (finProdFinEquiv (finProdFinEquiv (u, (⟨_, hx⟩ : Fin (d ^ c))), finProdFinEquiv ((⟨0, hy⟩ : Fin (d ^ f)), z)) : ℕ) %
            d ^ b = z := by
          refine (congrArg (_ % ·) hmod).trans ?_
          rw [finProdFinEquiv_apply_val, Nat.add_mul_mod_self_left, Nat.mod_eq_of_lt (Fin.is_lt _), finProdFinEquiv_apply_val]
          show (z : ℕ) + d ^ c * 0 = z
          rw [mul_zero, add_zero]
        simp only [restartChoi, e1, ← Fin.ext_iff, finProdFinEquiv.apply_eq_iff_eq, Prod.mk.injEq, and_true]
      simp only [hent]
      have hrho : ∀ (u : Fin (d ^ b)) (w : Fin (d ^ b * d ^ c)), finProdFinEquiv (u, (⟨_, hx⟩ : Fin (d ^ c))) = w →
          (basisArr (d ^ (b + c)) (d ^ (b + c - b - 1))).mat (d ^ b * d ^ c) (d ^ b * d ^ c) (finProdFinEquiv (u, ⟨_, hx⟩)) w =
            if (u : ℕ) = 0 then 1 else 0 := by
        rintro u w rfl
        rw [Arr.mat_apply]
        simp only [basisArr, hr, and_self]
        rw [finProdFinEquiv_apply_val]
        by_cases h0 : (u : ℕ) = 0
        · rw [if_pos h0, if_pos]
          show d ^ (c - 1) + d ^ c * (u : ℕ) = _
          rw [h0, mul_zero, add_zero]
        · rw [if_neg h0, if_neg]
          show ¬ d ^ (c - 1) + d ^ c * (u : ℕ) = _
          have := Nat.mul_pos hz (Nat.pos_of_ne_zero h0)
          omega
      rw [Finset.sum_eq_single (⟨0, hu⟩ : Fin (d ^ b))]
      · rw [Finset.sum_eq_single (⟨0, hz⟩ : Fin (d ^ c))]
        · rw [Finset.sum_eq_single (finProdFinEquiv ((⟨0, hu⟩ : Fin (d ^ b)), (⟨_, hx⟩ : Fin (d ^ c))))]
          · rw [if_pos ⟨rfl, rfl⟩, hrho _ _ rfl, if_pos rfl, mul_one]
          · intro w _ hw
            rw [if_neg (fun hh => hw hh.1.symm), zero_mul]
          · simp
        · intro z _ hz'
          refine Finset.sum_eq_zero fun w _ => ?_
          rw [if_neg (fun hh => hz' (Fin.ext hh.2)), zero_mul]
        · simp
      · intro u _ hu'
        refine Finset.sum_eq_zero fun z _ => Finset.sum_eq_zero fun w _ => ?_
        by_cases hw : finProdFinEquiv (u, (⟨_, hx⟩ : Fin (d ^ c))) = w
        · rw [hrho u w hw, if_neg (fun hh => hu' (Fin.ext hh)), mul_zero]
        · rw [if_neg (fun hh => hw hh.1), zero_mul]
      · simp
    · obtain ⟨c, rfl⟩ : ∃ c, N = b + b + c := ⟨N - (b + b), by omega⟩
      obtain ⟨out, h1, h2, h3, h4⟩ := C118_inputs_refuted hio rfl (by
        have e1 : d ^ b * d ^ b * d ^ c = d ^ (b + b + c) := by rw [pow_add, pow_add]
        rw [e1, restartChoi_mat]
        exact (Spec.tp_iff_traceOutput _).mp (restartOps_tp _ _ (Nat.pow_pos hd0)))
        (basisArr (d ^ (b + b + c)) (d ^ (b + b + c - b - 1))) rfl rfl
      refine ⟨out, h1, h2, h3, ?_⟩
      have hx : d ^ (b - 1) < d ^ b := hlt (by omega)
      have h5 := h4 ⟨_, hx⟩ ⟨_, hx⟩
      rw [Arr.mat_apply] at h5
      rw [h5]
      have hu : 0 < d ^ b := Nat.pow_pos hd0
      have hz : 0 < d ^ c := Nat.pow_pos hd0
      have hrho : ∀ (u : Fin (d ^ b)) (w : Fin (d ^ c)), (basisArr (d ^ (b + b + c)) (d ^ (b + b + c - b - 1))).mat
          (d ^ b * d ^ b * d ^ c) (d ^ b * d ^ b * d ^ c) (finProdFinEquiv (finProdFinEquiv (u, ⟨_, hx⟩), w))
            (finProdFinEquiv (finProdFinEquiv (u, ⟨_, hx⟩), w)) = if (u : ℕ) = 0 ∧ (w : ℕ) = 0 then 1 else 0 := by
        intro u w
        rw [Arr.mat_apply]
        simp only [basisArr, and_self, finProdFinEquiv_apply_val]
        have hr : d ^ (b + b + c - b - 1) = d ^ c * d ^ (b - 1) := by
          rw [← pow_add]
          congr 1
          omega
        rw [hr, mul_add]
        by_cases h0 : (u : ℕ) = 0 ∧ (w : ℕ) = 0
        · rw [if_pos h0, if_pos]
          rw [h0.1, h0.2]
          simp
        · rw [if_neg h0, if_neg]
          intro hh
          apply h0
          have hz' : d ^ c * (d ^ b * (u : ℕ)) = 0 := by omega
          refine ⟨?_, by omega⟩
          by_contra hne
          have := Nat.mul_pos hz (Nat.mul_pos hu (Nat.pos_of_ne_zero hne))
          omega
      simp only [hrho]
      rw [Finset.sum_eq_single (⟨0, hu⟩ : Fin (d ^ b))]
      · rw [Finset.sum_eq_single (⟨0, hz⟩ : Fin (d ^ c))]
        · rw [if_pos ⟨rfl, rfl⟩]
        · intro w _ hw
          rw [if_neg (fun hh => hw (Fin.ext hh.2))]
        · simp
      · intro u _ hu'
        refine Finset.sum_eq_zero fun w _ => ?_
        rw [if_neg (fun hh => hu' (Fin.ext hh.1))]
      · simp
  obtain ⟨out, h1, h2, h3, h4⟩ := hmain
  refine ⟨_, _, out, hio, restartOps_tp _ _ (Nat.pow_pos hd0), restartChoi_mat _ _, h1, h2, h3, h4, ?_⟩
  intro hh
  have hx : d ^ (b - 1) < d ^ b := hlt (by omega)
  have h5 := congrFun (congrFun hh ⟨_, hx⟩) ⟨_, hx⟩
  rw [Arr.mat_apply] at h5
  have h6 : Spec.applyKraus (restartOps (d ^ N) (d ^ b)) ((basisArr (d ^ N) (d ^ (N - b - 1))).mat (d ^ N) (d ^ N))
      (⟨_, hx⟩ : Fin (d ^ b)) ⟨_, hx⟩ = 0 := by
    unfold Spec.applyKraus
    rw [Matrix.sum_apply]
    refine Finset.sum_eq_zero fun k _ => ?_
    rw [Matrix.mul_apply]
    refine Finset.sum_eq_zero fun y _ => ?_
    rw [Matrix.conjTranspose_apply]
    simp only [restartOps]
    rw [if_neg (fun hh => (Nat.pow_pos (n := b - 1) hd0).ne' hh.1), star_zero, mul_zero]
  rw [h6] at h5
  exact one_ne_zero (h4.symm.trans h5)

end PyQ
