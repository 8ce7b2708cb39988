import Verif.Model.Channel
import Verif.Props.Choi
import Verif.Props.Effective
import Verif.Props.EntropyBounds

/-!
# C81, C82, C83: the constructor of a channel, its attributes, and sums and products of mixed kinds
-/

namespace PyQ

open Matrix
open scoped ComplexOrder

/-- The operators preserve the trace up to the tolerance `1e-5`, entry by entry. -/
def Spec.NearlyTP {ι : Type} [Fintype ι] {m n : ℕ} (K : ι → Matrix (Fin m) (Fin n) ℂ) : Prop :=
  ∀ i j, ‖((∑ k, (K k)ᴴ * K k) - 1) i j‖ < 1 / 10 ^ 5

theorem isTP_iff (o : KrausObj) (r c : ℕ) (hr : o.kraus.rows = r) (hc : o.kraus.cols = c) :
    o.isTP ↔ Spec.NearlyTP (o.kraus.ops o.kraus.len r c) := by
  subst hr hc
  constructor
  · intro h i j
    have := h i i.2 j j.2
    rw [traceCond_get o i j] at this
    rw [Matrix.sub_apply, Matrix.one_apply]
    simpa only [Fin.ext_iff] using this
  · intro h i hi j hj
    have := h ⟨i, hi⟩ ⟨j, hj⟩
    rw [traceCond_get o ⟨i, hi⟩ ⟨j, hj⟩]
    rw [Matrix.sub_apply, Matrix.one_apply] at this
    simpa only [Fin.ext_iff] using this

theorem traceCond_shape (o : KrausObj) : o.traceCond.rows = o.kraus.cols ∧ o.traceCond.cols = o.kraus.cols := by
  unfold KrausObj.traceCond
  split
  · have : ∀ (l : List ℕ) (f : ℕ → Arr ℂ) (A : Arr ℂ), (l.foldl (fun acc i => acc.add (f i)) A).rows = A.rows ∧
        (l.foldl (fun acc i => acc.add (f i)) A).cols = A.cols := by
      intro l f
      induction l with
      | nil => intro A; exact ⟨rfl, rfl⟩
      | cons x xs ih => intro A; exact ⟨(ih _).1, (ih _).2⟩
    exact this _ _ _
  · exact ⟨rfl, rfl⟩

/-- Which arrays of operators the Kraus constructor accepts. -/
theorem qchanInit_iff (sp : Bool) (A : Arr3 ℂ) (a b d e : ℕ) (orth : List ℕ) :
    (∃ o, QChan.init sp A a b d e orth = .ok o) ↔
      0 < A.len ∧ A.rows = e ^ b ∧ A.cols = d ^ a ∧ Spec.NearlyTP (A.ops A.len (e ^ b) (d ^ a)) := by
  constructor
  · rintro ⟨o, h⟩
    obtain ⟨-, h2, -, -, -, -, -, -, h9, h10, h11, h12⟩ := qchanInit_ok h
    refine ⟨h9, h11, h10, ?_⟩
    have := (isTP_iff o (e ^ b) (d ^ a) (by rw [h2, h11]) (by rw [h2, h10])).1 h12
    rwa [h2] at this
  · rintro ⟨h1, h2, h3, h4⟩
    refine init_tp sp A a b d e orth h1 h3 h2 ?_
    rintro o rfl
    exact (isTP_iff o (e ^ b) (d ^ a) h2 h3).2 h4

theorem forKraus_ok {q : Qubits} {x : ℕ × ℕ} : q.forKraus = .ok x ↔ q = Qubits.list x.1 x.2 := by
  obtain ⟨l, items⟩ := q
  unfold Qubits.forKraus Qubits.list
  cases l
  · simp
  · simp only [Bool.true_eq_false, if_false]
    split <;> simp_all [Prod.ext_iff]

variable {chk : QutipChecks} {q : Qubits} {d e : ℕ} {orth : List ℕ} {sp : Bool}

/-! ### C81 -/

/-- C81.  A list of operators is accepted exactly when it is not empty, `numb_qubits` is a *list* `[a, b]` of
two integers, all operators are `dim_out^b` by `dim_in^a` matrices, and they preserve the trace up to
`1e-5`. -/
theorem C81_list_partial (ops : List (Arr ℂ)) :
    (∃ c, Chan.init chk (.list ops) q d e orth sp = .ok c) ↔
      ops ≠ [] ∧ ∃ a b, q = Qubits.list a b ∧ (∀ K ∈ ops, K.rows = e ^ b ∧ K.cols = d ^ a) ∧
        Spec.NearlyTP fun k : Fin ops.length => ops[k].mat (e ^ b) (d ^ a) := by
  rcases ops with _ | ⟨K, ops⟩
  · simp only [ne_eq, not_true_eq_false, false_and, iff_false]
    rintro ⟨c, h⟩
    simp only [Chan.init, Chan.initKraus] at h
    rcases hq : q.forKraus with x | x
    · rw [hq] at h; cases h
    · rw [hq] at h; cases h
  · set l := K :: ops with hl
    have hne : l ≠ [] := by simp [hl]
    have hdef : Chan.init chk (.list l) q d e orth sp = (do
        let A ← Arr3.ofList l
        let ab ← q.forKraus
        let k ← QChan.init sp A ab.1 ab.2 d e orth
        return ⟨sp, .kraus k⟩) := rfl
    rw [hdef]
    constructor
    · rintro ⟨c, h⟩
      rcases hA : Arr3.ofList l with x | A
      · rw [hA] at h; cases h
      rw [hA] at h
      rcases hq : q.forKraus with x | ⟨a, b⟩
      · rw [hq] at h; cases h
      rw [hq] at h
      rcases hk : QChan.init sp A a b d e orth with x | k
      · simp only [bind, Except.bind, hk] at h; cases h
      obtain ⟨h1, h2, h3, h4⟩ := (qchanInit_iff sp A a b d e orth).1 ⟨k, hk⟩
      have hshape : ∀ B ∈ l, B.rows = A.rows ∧ B.cols = A.cols := by
        intro B hB
        rw [hl] at hA
        unfold Arr3.ofList at hA
        dsimp only at hA
        by_cases hc : ∀ B ∈ ops, B.rows = K.rows ∧ B.cols = K.cols
        · rw [if_pos hc] at hA
          injection hA with hA
          subst hA
          rcases List.mem_cons.1 hB with rfl | hB
          · exact ⟨rfl, rfl⟩
          · exact hc B hB
        · rw [if_neg hc] at hA; cases hA
      obtain ⟨A', e1, e2, e3, e4, e5⟩ := arr3_ofList hne hshape
      have : A' = A := by
        have := e1.symm.trans hA
        injection this
      subst this
      refine ⟨hne, a, b, forKraus_ok.1 hq, fun B hB => by rw [(hshape B hB).1, (hshape B hB).2]; exact ⟨h2, h3⟩, ?_⟩
      have key : ∀ (n : ℕ) (hn : n = l.length), Spec.NearlyTP (A'.ops n (e ^ b) (d ^ a)) →
          Spec.NearlyTP fun k : Fin l.length => l[k].mat (e ^ b) (d ^ a) := by
        rintro n rfl h
        convert h using 2 with k
        ext i j
        simp only [Arr.mat, Arr3.ops, e5 k k.2]
        rfl
      exact key _ e2 h4
    · rintro ⟨-, a, b, rfl, hs, htp⟩
      obtain ⟨A, e1, e2, e3, e4, e5⟩ := arr3_ofList hne hs
      have : ∃ k, QChan.init sp A a b d e orth = .ok k := by
        refine (qchanInit_iff sp A a b d e orth).2 ⟨by rw [e2, hl]; simp, e3, e4, ?_⟩
        have key : ∀ (n : ℕ) (hn : n = l.length), Spec.NearlyTP (A.ops n (e ^ b) (d ^ a)) := by
          rintro n rfl
          convert htp using 2 with k
          ext i j
          simp only [Arr.mat, Arr3.ops, e5 k k.2]
          rfl
        exact key _ e2
      obtain ⟨k, hk⟩ := this
      refine ⟨⟨sp, .kraus k⟩, ?_⟩
      rw [e1]
      change (do
        let ab ← (Qubits.list a b).forKraus
        let k ← QChan.init sp A ab.1 ab.2 d e orth
        return (⟨sp, .kraus k⟩ : Chan)) = _
      rw [(forKraus_ok (x := (a, b))).2 rfl]
      change (do
        let k ← QChan.init sp A a b d e orth
        return (⟨sp, .kraus k⟩ : Chan)) = _
      rw [hk]
      rfl

/-- C81.  A three-dimensional array is accepted under the same conditions; a `SparseArray` only with
`sparse=True`. -/
theorem C81_array_partial (spa : Bool) (A : Arr3 ℂ) (c : Chan) :
    Chan.init chk (.array3 spa A) q d e orth sp = .ok c ↔
      (spa = true → sp = true) ∧ ∃ a b k, q = Qubits.list a b ∧ QChan.init sp A a b d e orth = .ok k ∧
        c = ⟨sp, .kraus k⟩ := by
  have hdef : Chan.init chk (.array3 spa A) q d e orth sp =
      if spa = true ∧ sp = false then .error .type else (do
        let ab ← q.forKraus
        let k ← QChan.init sp A ab.1 ab.2 d e orth
        return ⟨sp, .kraus k⟩) := rfl
  rw [hdef]
  by_cases hs : spa = true ∧ sp = false
  · rw [if_pos hs]
    constructor
    · intro h; cases h
    · rintro ⟨h, -⟩
      rw [h hs.1] at hs
      simp at hs
  rw [if_neg hs]
  have hs' : spa = true → sp = true := by
    intro h
    by_contra h'
    exact hs ⟨h, by simpa using h'⟩
  constructor
  · intro h
    rcases hq : q.forKraus with x | ⟨a, b⟩
    · rw [hq] at h; cases h
    rw [hq] at h
    rcases hk : QChan.init sp A a b d e orth with x | k
    · simp only [bind, Except.bind, hk] at h; cases h
    simp only [bind, Except.bind, hk, pure, Except.pure] at h
    injection h with h
    exact ⟨hs', a, b, k, forKraus_ok.1 hq, hk, h.symm⟩
  · rintro ⟨-, a, b, k, rfl, hk, rfl⟩
    rw [(forKraus_ok (x := (a, b))).2 rfl]
    simp only [bind, Except.bind, hk, pure, Except.pure]

/-- C81.  A two-dimensional `ndarray` is taken for a Choi matrix.  It is accepted exactly when the first two
entries of `numb_qubits` are integers `a`, `b` — in a list or a tuple, also a longer one —, the number of its
columns is `dim_out^b * dim_in^a`, and it passes the two checks of qutip. -/
theorem C81_choi_partial (C : Arr ℂ) :
    (∃ c, Chan.init chk (.array2 false C) q d e orth sp = .ok c) ↔
      ∃ a b rest, q.items = some a :: some b :: rest ∧ C.cols = e ^ b * d ^ a ∧
        chk.istp C (d ^ a) (e ^ b) = true ∧ chk.iscp C (d ^ a) (e ^ b) = true := by
  obtain ⟨l, items⟩ := q
  have hdef : Chan.init chk (.array2 false C) ⟨l, items⟩ d e orth sp = (do
      let ab ← (Qubits.mk l items).forChoi
      let c ← ChoiObj.init chk C ab.1 ab.2 d e
      return ⟨sp, .choi c⟩) := rfl
  rw [hdef]
  have key : ∀ a b rest, items = some a :: some b :: rest → (Qubits.mk l items).forChoi = .ok (a, b) := by
    rintro a b rest rfl
    rfl
  constructor
  · rintro ⟨c, h⟩
    have : ∃ a b rest, items = some a :: some b :: rest := by
      rcases items with _ | ⟨x, _ | ⟨y, rest⟩⟩
      · cases h
      · cases x <;> cases h
      · rcases x with _ | a
        · cases h
        · rcases y with _ | b
          · cases h
          · exact ⟨a, b, rest, rfl⟩
    obtain ⟨a, b, rest, hi⟩ := this
    rw [key a b rest hi] at h
    refine ⟨a, b, rest, hi, ?_⟩
    simp only [bind, Except.bind, ChoiObj.init] at h
    by_cases h1 : C.cols ≠ e ^ b * d ^ a
    · rw [if_pos h1] at h; cases h
    rw [if_neg h1] at h
    by_cases h2 : chk.istp C (d ^ a) (e ^ b) = true
    · by_cases h3 : chk.iscp C (d ^ a) (e ^ b) = true
      · exact ⟨not_not.1 h1, h2, h3⟩
      · simp only [pyAssert, if_pos h2, if_neg h3] at h; cases h
    · simp only [pyAssert, if_neg h2] at h; cases h
  · rintro ⟨a, b, rest, hi, h1, h2, h3⟩
    rw [key a b rest hi]
    refine ⟨⟨sp, .choi ⟨C, a, b, d, e⟩⟩, ?_⟩
    simp only [bind, Except.bind, ChoiObj.init, pyAssert, h1, ne_eq, not_true_eq_false, if_false, h2, h3, if_true]
    rfl

/-- C81.  What is refused, and how: an operator of another type with `TypeError`, an `ndarray` that has
neither two nor three dimensions with `AssertionError`, a `SparseArray` for `sparse=False` with `TypeError`,
an empty list with `ValueError`, operators of unequal shape with `ValueError`. -/
theorem C81_refused :
    Chan.init chk .other q d e orth sp = .error .type ∧
    Chan.init chk (.arrayN false) q d e orth sp = .error .assertion ∧
    (∀ A, Chan.init chk (.array3 true A) q d e orth false = .error .type) ∧
    (∀ a b, Chan.init chk (.list []) (.list a b) d e orth sp = .error .value) ∧
    (∀ K L rest, (K.rows ≠ L.rows ∨ K.cols ≠ L.cols) →
      Chan.init chk (.list (K :: L :: rest)) q d e orth sp = .error .value) := by
  refine ⟨rfl, rfl, fun A => rfl, fun a b => rfl, ?_⟩
  intro K L rest h
  have : Arr3.ofList (K :: L :: rest) = .error .value := by
    unfold Arr3.ofList
    dsimp only
    rw [if_neg]
    intro h'
    have := h' L (by simp)
    rcases h with h | h
    · exact h this.1.symm
    · exact h this.2.symm
  simp only [Chan.init, Chan.initKraus, this]
  rfl

/-- C81.  How `numb_qubits` is refused for a list or array of operators of one shape: anything but a list is an
`AssertionError`, a list with fewer than two entries an `IndexError` (when the entries are integers), an entry
that is no integer and a third entry an `AssertionError`. -/
theorem C81_qubits_refused (A : Arr3 ℂ) :
    (∀ items, Chan.init chk (.array3 false A) ⟨false, items⟩ d e orth sp = .error .assertion) ∧
    Chan.init chk (.array3 false A) ⟨true, []⟩ d e orth sp = .error .index ∧
    (∀ a, Chan.init chk (.array3 false A) ⟨true, [some a]⟩ d e orth sp = .error .index) ∧
    (∀ rest, Chan.init chk (.array3 false A) ⟨true, none :: rest⟩ d e orth sp = .error .assertion) ∧
    (∀ a rest, Chan.init chk (.array3 false A) ⟨true, some a :: none :: rest⟩ d e orth sp = .error .assertion) ∧
    (∀ a b x rest, Chan.init chk (.array3 false A) ⟨true, some a :: some b :: x :: rest⟩ d e orth sp =
      .error .assertion) := by
  refine ⟨fun _ => rfl, rfl, fun _ => rfl, ?_, fun _ _ => rfl, ?_⟩
  · intro rest; rcases rest with _ | ⟨x, rest⟩ <;> rfl
  · intro a b x rest; rfl

/-- C81.  How `numb_qubits` is refused for a Choi matrix: `IndexError` for fewer than two entries. -/
theorem C81_choi_refused (C : Arr ℂ) (l : Bool) :
    Chan.init chk (.array2 false C) ⟨l, []⟩ d e orth sp = .error .index ∧
    (∀ x, Chan.init chk (.array2 false C) ⟨l, [x]⟩ d e orth sp = .error .index) ∧
    (∀ a b rest, C.cols ≠ e ^ b * d ^ a →
      Chan.init chk (.array2 false C) ⟨l, some a :: some b :: rest⟩ d e orth sp = .error .value) ∧
    (∀ a b rest, C.cols = e ^ b * d ^ a →
      (chk.istp C (d ^ a) (e ^ b) = false ∨ chk.iscp C (d ^ a) (e ^ b) = false) →
      Chan.init chk (.array2 false C) ⟨l, some a :: some b :: rest⟩ d e orth sp = .error .assertion) := by
  refine ⟨rfl, fun x => by cases x <;> rfl, ?_, ?_⟩
  · intro a b rest h
    simp only [Chan.init, Qubits.forChoi, bind, Except.bind, ChoiObj.init, if_pos h]
  · intro a b rest h h'
    simp only [Chan.init, Qubits.forChoi, bind, Except.bind, ChoiObj.init, ne_eq, h, not_true_eq_false, if_false,
      pyAssert]
    by_cases h1 : chk.istp C (d ^ a) (e ^ b) = true
    · rw [if_pos h1, if_neg (by rcases h' with h' | h' <;> simp_all)]
    · rw [if_neg h1]

/-- C81 is false of the documented `numb_qubits : tuple`: with a tuple no Kraus operators at all are
accepted. -/
theorem C81_tuple_refuted (a b : ℕ) :
    (∀ ops c, Chan.init chk (.list ops) (.tuple a b) d e orth sp ≠ .ok c) ∧
    (∀ s A c, Chan.init chk (.array3 s A) (.tuple a b) d e orth sp ≠ .ok c) := by
  have hne : ∀ x y, Qubits.tuple a b ≠ Qubits.list x y := by
    intro x y h
    have := congrArg Qubits.isList h
    cases this
  refine ⟨?_, ?_⟩
  · intro ops c h
    obtain ⟨-, x, y, h', -⟩ := (C81_list_partial ops).1 ⟨c, h⟩
    exact hne x y h'
  · intro s A c h
    obtain ⟨-, x, y, k, h', -⟩ := (C81_array_partial s A c).1 h
    exact hne x y h'

/-- C81 is false of the documented `TypeError` for dimensions that do not match the operators: it is an
`AssertionError`. -/
theorem C81_dimensions_refuted (K : Arr ℂ) (a b : ℕ) (h : K.cols ≠ d ^ a ∨ K.rows ≠ e ^ b) :
    Chan.init chk (.list [K]) (.list a b) d e orth sp = .error .assertion := by
  obtain ⟨A, e1, e2, e3, e4, -⟩ := arr3_ofList (l := [K]) (by simp) (r := K.rows) (c := K.cols) (by simp)
  have := (init_bad_shape sp A a b d e orth (by rw [e2]; simp) (by rw [e3, e4]; exact h)).2
  simp only [Chan.init, Chan.initKraus, e1, bind, Except.bind, (forKraus_ok (x := (a, b))).2 rfl, this]

/-- C81 is false of two-dimensional sparse arrays: a `SparseArray` that is not three-dimensional is accepted,
whatever the other arguments are, and then every method and attribute raises `AttributeError`. -/
theorem C81_sparse_matrix_refuted (C : Arr ℂ) (eig : Eigvalsh) (sqrtm : Sqrtm) (eigh : Eigh) :
    ∃ c, Chan.init chk (.array2 true C) q d e orth sp = .ok c ∧
      Chan.init chk (.arrayN true) q d e orth sp = .ok c ∧
      (∀ rho n adj, (c.channel rho n adj).1 = .error .attribute) ∧
      (∀ rho n, (c.entropyExchange rho n).1 = .error .attribute) ∧
      (∀ rho n reg, (Chan.coherentInformation eig sqrtm c rho n reg).1 = .error .attribute) ∧
      (∀ p s, c.avgFidelity p s = .error .attribute) ∧
      c.inputDimension = .error .attribute ∧ c.outputDimension = .error .attribute ∧
      c.dimIn = .error .attribute ∧ c.dimOut = .error .attribute ∧ c.numbQubits = .error .attribute ∧
      c.nthKrausOperators = .error .attribute ∧ c.numbKrauss = .error .attribute ∧
      c.krausArray eigh = .error .attribute ∧
      (∀ o, Chan.add chk eigh c o = .error .attribute) ∧ (∀ o, Chan.mul chk eigh c o = .error .attribute) :=
  ⟨⟨sp, .unset⟩, rfl, rfl, fun _ _ _ => rfl, fun _ _ => rfl, fun _ _ _ => rfl, fun _ _ => rfl, rfl, rfl, rfl, rfl,
    rfl, rfl, rfl, rfl, fun _ => rfl, fun _ => rfl⟩

/-- A list, an array and a Choi matrix meet the conditions of C81. -/
example : (∃ c, Chan.init ⟨fun _ _ _ => true, fun _ _ _ => true⟩ (.list [Arr.eye 2]) (.list 1 1) 2 2 [] false = .ok c) ∧
    (∃ c, Chan.init ⟨fun _ _ _ => true, fun _ _ _ => true⟩ (.array3 false dephOps) (.list 1 1) 2 2 [] true = .ok c) ∧
    (∃ c, Chan.init ⟨fun _ _ _ => true, fun _ _ _ => true⟩ (.array2 false dephChoi) (.tuple 1 1) 2 2 [] false = .ok c) := by
  refine ⟨?_, ?_, ?_⟩
  · refine (C81_list_partial _).2 ⟨by simp, 1, 1, rfl, ?_, ?_⟩
    · simp [Arr.eye]
    · intro i j
      have : (∑ k : Fin [Arr.eye (α := ℂ) 2].length, ([Arr.eye (α := ℂ) 2][k].mat (2 ^ 1) (2 ^ 1))ᴴ *
          [Arr.eye (α := ℂ) 2][k].mat (2 ^ 1) (2 ^ 1)) = 1 := by
        change ∑ k : Fin 1, _ = _
        rw [Fin.sum_univ_one]
        have h1 : (Arr.eye (α := ℂ) 2).mat (2 ^ 1) (2 ^ 1) = 1 := by
          ext i j
          simp [Arr.mat, Arr.eye, Matrix.one_apply, Fin.ext_iff]
        change ((Arr.eye (α := ℂ) 2).mat (2 ^ 1) (2 ^ 1))ᴴ * (Arr.eye (α := ℂ) 2).mat (2 ^ 1) (2 ^ 1) = 1
        rw [h1]
        simp
      rw [this]
      simp
  · obtain ⟨k, hk⟩ := deph_ok true []
    exact ⟨_, (C81_array_partial false dephOps _).2 ⟨by simp, 1, 1, k, rfl, hk, rfl⟩⟩
  · exact (C81_choi_partial dephChoi).2 ⟨1, 1, [], rfl, rfl, rfl, rfl⟩

/-! ### C82 -/

/-- C82.  Whatever was called before, `dim_in`, `dim_out`, `numb_qubits` and `kraus` of a channel given by Kraus
operators are what it was constructed with; `input_dimension` and `output_dimension` belong to the number of
uses in the last call, and to one use before the first. -/
theorem C82_kraus_partial (eigh : Eigh) {spa : Bool} {A : Arr3 ℂ} {a b : ℕ} {c : Chan}
    (h : Chan.init chk (.array3 spa A) (.list a b) d e orth sp = .ok c) (calls : List QChan.Call) :
    (c.history calls).dimIn = .ok d ∧ (c.history calls).dimOut = .ok e ∧
    (c.history calls).numbQubits = .ok (a, b) ∧ (c.history calls).krausArray eigh = .ok A ∧
    c.inputDimension = .ok (d ^ a) ∧ c.outputDimension = .ok (e ^ b) ∧
    ∀ last, Spec.SafeUses sp (calls.map QChan.Call.uses ++ [last.uses]) →
      (c.history (calls ++ [last])).inputDimension = .ok ((d ^ a) ^ last.uses) ∧
      (c.history (calls ++ [last])).outputDimension = .ok ((e ^ b) ^ last.uses) := by
  obtain ⟨-, a', b', k, hq, hk, rfl⟩ := (C81_array_partial spa A c).1 h
  obtain ⟨rfl, rfl⟩ : a = a' ∧ b = b' := by
    have := congrArg Qubits.items hq
    simpa [Qubits.list] using this
  obtain ⟨h1, h2, h3, h4, h5, h6, h7, -⟩ := qchanInit_ok hk
  obtain ⟨p1, p2, p3, p4, p5, p6, p7⟩ := history_static k calls
  refine ⟨congrArg _ (p5.trans h6), congrArg _ (p6.trans h7), ?_, congrArg _ (p1.trans h2), ?_, ?_, ?_⟩
  · change Except.ok ((QChan.history k calls).numIn, (QChan.history k calls).numOut) = _
    rw [p3, p4, h4, h5]
  · change Except.ok (QChan.inputDimension k) = _
    rw [QChan.inputDimension, h1.cur, h6, h4, pow_one]
  · change Except.ok (QChan.outputDimension k) = _
    rw [QChan.outputDimension, h1.cur, h7, h5, pow_one]
  · intro last hsafe
    obtain ⟨-, -, -, -, -, q1, q2⟩ := C27_history_partial hk calls last hsafe
    exact ⟨congrArg _ q1, congrArg _ q2⟩

/-- C82.  The same for a channel given by its Choi matrix, which has no other number of uses than one; the Kraus
operators at several uses are refused with `AssertionError`. -/
theorem C82_choi_partial {C : Arr ℂ} {a b : ℕ} {l : Bool} {rest : List (Option ℕ)} {c : Chan}
    (h : Chan.init chk (.array2 false C) ⟨l, some a :: some b :: rest⟩ d e orth sp = .ok c) (calls : List QChan.Call) :
    (c.history calls).dimIn = .ok d ∧ (c.history calls).dimOut = .ok e ∧
    (c.history calls).numbQubits = .ok (a, b) ∧
    (c.history calls).inputDimension = .ok (d ^ a) ∧ (c.history calls).outputDimension = .ok (e ^ b) ∧
    (c.history calls).nthKrausOperators = .error .assertion ∧ (c.history calls).numbKrauss = .error .assertion := by
  simp only [Chan.init, Qubits.forChoi, bind, Except.bind] at h
  rcases ho : ChoiObj.init chk C a b d e with x | o
  · rw [ho] at h; cases h
  rw [ho] at h
  simp only [pure, Except.pure] at h
  injection h with h
  subst h
  obtain ⟨rfl, -⟩ := choiInit_ok ho
  exact ⟨rfl, rfl, rfl, rfl, rfl, rfl, rfl⟩

/-- C82 is false of `numb_krauss`, documented to return the number of Kraus operators: it raises
`AttributeError` for every channel given by Kraus operators. -/
theorem C82_numb_krauss_refuted {spa : Bool} {A : Arr3 ℂ} {c : Chan}
    (h : Chan.init chk (.array3 spa A) q d e orth sp = .ok c) (calls : List QChan.Call) :
    (c.history calls).numbKrauss = .error .attribute := by
  obtain ⟨-, a, b, k, -, -, rfl⟩ := (C81_array_partial spa A c).1 h
  rfl

/-! ### C83 -/

/-- The Kraus operators read from a Choi matrix, as an array. -/
theorem choi_krausArray (eigh : Eigh) (heigh : eigh.Correct) {C : Arr ℂ} {a b : ℕ} {o : ChoiObj}
    (h : ChoiObj.init chk C a b d e = .ok o) (hsq : C.rows = C.cols)
    (hpos : (C.mat (d ^ a * e ^ b) (d ^ a * e ^ b)).PosSemidef) :
    ∃ R : Matrix (Fin (d ^ a * e ^ b)) (Fin (d ^ a * e ^ b)) ℂ,
      R.PosSemidef ∧ (((1 / 10 ^ 8 : ℝ) : ℂ) • (1 : Matrix _ _ ℂ) - R).PosSemidef ∧
      ((∀ i < d ^ a * e ^ b, (eigh C).1 i ≤ 0 ∨ (1 : ℝ) / 10 ^ 8 < (eigh C).1 i) → R = 0) ∧
      ((∃ A, Chan.krausArray eigh ⟨sp, .choi o⟩ = .ok A ∧ 0 < A.len ∧ A.rows = e ^ b ∧ A.cols = d ^ a ∧
          Spec.choi (A.ops A.len (e ^ b) (d ^ a)) = C.mat (d ^ a * e ^ b) (d ^ a * e ^ b) - R) ∨
        (Chan.krausArray eigh ⟨sp, .choi o⟩ = .error .assertion ∧ C.mat (d ^ a * e ^ b) (d ^ a * e ^ b) = R)) := by
  obtain ⟨hshape, R, hR, hp, hq, h0⟩ := C33_kraus_operators eigh heigh h hsq hpos
  refine ⟨R, hp, hq, h0, ?_⟩
  rcases hL : o.krausOperators eigh with _ | ⟨K, rest⟩
  · right
    rw [hL] at hR
    refine ⟨?_, by simpa using hR⟩
    unfold Chan.krausArray
    simp only [hL]
  · left
    have hne : o.krausOperators eigh ≠ [] := by rw [hL]; simp
    obtain ⟨A, e1, e2, e3, e4, e5⟩ := arr3_ofList hne hshape
    refine ⟨A, ?_, by rw [e2, hL]; simp, e3, e4, ?_⟩
    · unfold Chan.krausArray
      simp only [hL]
      rw [← hL]
      exact e1
    · rw [hR, add_sub_cancel_right]
      generalize o.krausOperators eigh = L at *
      unfold Spec.choi
      have key : ∀ (n : ℕ) (hn : n = L.length), ∑ k, vecMulVec (Spec.vec (A.ops n (e ^ b) (d ^ a) k))
          (star (Spec.vec (A.ops n (e ^ b) (d ^ a) k))) = (L.map fun K =>
            vecMulVec (Spec.vec (K.mat (e ^ b) (d ^ a))) (star (Spec.vec (K.mat (e ^ b) (d ^ a))))).sum := by
        rintro n rfl
        rw [← Fin.sum_univ_fun_getElem]
        refine Finset.sum_congr rfl fun k _ => ?_
        have : A.ops L.length (e ^ b) (d ^ a) k = L[k.1].mat (e ^ b) (d ^ a) := by
          ext i j
          simp only [Arr.mat, Arr3.ops, e5 k k.2]
        rw [this]
      exact key _ e2

theorem Spec.applyKraus_serial {l₁ l₂ a b c : ℕ} (K₁ : Fin l₁ → Matrix (Fin a) (Fin b) ℂ)
    (K₂ : Fin l₂ → Matrix (Fin b) (Fin c) ℂ) (ρ : Matrix (Fin c) (Fin c) ℂ) :
    Spec.applyKraus (fun k : Fin (l₁ * l₂) => K₁ k.divNat * K₂ k.modNat) ρ =
      Spec.applyKraus K₁ (Spec.applyKraus K₂ ρ) := by
  unfold Spec.applyKraus
  rw [← Equiv.sum_comp finProdFinEquiv, Fintype.sum_prod_type]
  refine Finset.sum_congr rfl fun i _ => ?_
  rw [Matrix.mul_sum, Matrix.sum_mul]
  refine Finset.sum_congr rfl fun j _ => ?_
  have h1 : (finProdFinEquiv (i, j)).divNat = i := congrArg Prod.fst (finProdFinEquiv.symm_apply_apply (i, j))
  have h2 : (finProdFinEquiv (i, j)).modNat = j := congrArg Prod.snd (finProdFinEquiv.symm_apply_apply (i, j))
  simp only [h1, h2, Matrix.conjTranspose_mul]
  simp only [Matrix.mul_assoc]

section
variable {sp₁ sp₂ : Bool} {ops₁ : Arr3 ℂ} {a₁ b₁ d₁ e₁ a₂ b₂ d₂ e₂ : ℕ} {orth₁ : List ℕ} {s : KrausObj}
  {C : Arr ℂ} {o : ChoiObj} {eigh : Eigh} {t : Chan}

/-- What a sum of a Kraus channel and another channel is. -/
theorem chanAdd_eq (hs : QChan.init sp₁ ops₁ a₁ b₁ d₁ e₁ orth₁ = .ok s) (cs : List QChan.Call) (u : Chan) :
    Chan.add chk eigh (Chan.history ⟨sp₁, .kraus s⟩ cs) u = (do
      let k₂ ← u.krausArray eigh
      let k ← serialConcat ops₁ k₂
      let qo ← u.numbQubits
      let di ← u.dimIn
      let x ← QChan.init (sp₁ || u.sparse) k qo.1 b₁ di e₁ []
      return ⟨sp₁ || u.sparse, .kraus x⟩) := by
  obtain ⟨-, h2, h3, h4, h5, h6, h7, -⟩ := qchanInit_ok hs
  obtain ⟨p1, p2, p3, p4, p5, p6, p7⟩ := history_static s cs
  have hk : Chan.krausArray eigh (Chan.history ⟨sp₁, .kraus s⟩ cs) = .ok ops₁ := congrArg _ (p1.trans h2)
  have hq : Chan.numbQubits (Chan.history ⟨sp₁, .kraus s⟩ cs) = .ok (a₁, b₁) := by
    change Except.ok ((QChan.history s cs).numIn, (QChan.history s cs).numOut) = _
    rw [p3, p4, h4, h5]
  have hd : Chan.dimOut (Chan.history ⟨sp₁, .kraus s⟩ cs) = .ok e₁ := congrArg _ (p6.trans h7)
  unfold Chan.add
  have ha : Chan.assertKraus (Chan.history ⟨sp₁, .kraus s⟩ cs) = .ok () := rfl
  have hsp : (Chan.history ⟨sp₁, .kraus s⟩ cs).sparse = sp₁ := rfl
  rw [ha, hk, hq, hd, hsp]
  simp only [bind, Except.bind]
  rcases u.krausArray eigh with x | A
  · rfl
  simp only
  rcases serialConcat ops₁ A with x | B
  · rfl
  simp only
  rcases u.numbQubits with x | x
  · rfl
  simp only
  rcases u.dimIn with y | y
  · rfl
  simp only [Chan.init, Chan.initKraus]
  rw [if_neg (show ¬ ((sp₁ || u.sparse) = true ∧ (sp₁ || u.sparse) = false) by cases (sp₁ || u.sparse) <;> simp),
    (forKraus_ok (x := (x.1, b₁))).2 rfl]
  rfl

/-- What a product of a Kraus channel and another channel is. -/
theorem chanMul_eq (hs : QChan.init sp₁ ops₁ a₁ b₁ d₁ e₁ orth₁ = .ok s) (cs : List QChan.Call) (u : Chan) :
    Chan.mul chk eigh (Chan.history ⟨sp₁, .kraus s⟩ cs) u = (do
      let k₂ ← u.krausArray eigh
      let di ← u.dimIn
      let de ← u.dimOut
      let x ← QChan.init (sp₁ || u.sparse) (ops₁.kron k₂) 1 1 (d₁ * di) (e₁ * de) []
      return ⟨sp₁ || u.sparse, .kraus x⟩) := by
  obtain ⟨-, h2, h3, h4, h5, h6, h7, -⟩ := qchanInit_ok hs
  obtain ⟨p1, p2, p3, p4, p5, p6, p7⟩ := history_static s cs
  have hk : Chan.krausArray eigh (Chan.history ⟨sp₁, .kraus s⟩ cs) = .ok ops₁ := congrArg _ (p1.trans h2)
  have hdi : Chan.dimIn (Chan.history ⟨sp₁, .kraus s⟩ cs) = .ok d₁ := congrArg _ (p5.trans h6)
  have hd : Chan.dimOut (Chan.history ⟨sp₁, .kraus s⟩ cs) = .ok e₁ := congrArg _ (p6.trans h7)
  unfold Chan.mul
  have ha : Chan.assertKraus (Chan.history ⟨sp₁, .kraus s⟩ cs) = .ok () := rfl
  have hsp : (Chan.history ⟨sp₁, .kraus s⟩ cs).sparse = sp₁ := rfl
  rw [ha, hk, hdi, hd, hsp]
  simp only [bind, Except.bind]
  rcases u.krausArray eigh with x | A
  · rfl
  simp only
  rcases u.dimIn with x | x
  · rfl
  simp only
  rcases u.dimOut with y | y
  · rfl
  simp only [Chan.init, Chan.initKraus, parallelConcat]
  rw [if_neg (show ¬ ((sp₁ || u.sparse) = true ∧ (sp₁ || u.sparse) = false) by cases (sp₁ || u.sparse) <;> simp),
    (forKraus_ok (x := (1, 1))).2 rfl]
  rfl

/-- C83.  `A + B` and `A * B` for two channels given by Kraus operators are the sums and products of Model/Kraus.lean
that C25 and C26 are about. -/
theorem C83_kraus {ops₂ : Arr3 ℂ} {orth₂ : List ℕ} {u : KrausObj}
    (hs : QChan.init sp₁ ops₁ a₁ b₁ d₁ e₁ orth₁ = .ok s) (hu : QChan.init sp₂ ops₂ a₂ b₂ d₂ e₂ orth₂ = .ok u)
    (cs cu : List QChan.Call) :
    Chan.add chk eigh (Chan.history ⟨sp₁, .kraus s⟩ cs) (Chan.history ⟨sp₂, .kraus u⟩ cu) =
      (QChan.add (QChan.history s cs) (QChan.history u cu)).map (fun k => ⟨sp₁ || sp₂, .kraus k⟩) ∧
    Chan.mul chk eigh (Chan.history ⟨sp₁, .kraus s⟩ cs) (Chan.history ⟨sp₂, .kraus u⟩ cu) =
      (QChan.mul (QChan.history s cs) (QChan.history u cu)).map (fun k => ⟨sp₁ || sp₂, .kraus k⟩) := by
  obtain ⟨-, h2, h3, h4, h5, h6, h7, -⟩ := qchanInit_ok hs
  obtain ⟨p1, p2, p3, p4, p5, p6, p7⟩ := history_static s cs
  obtain ⟨-, g2, g3, g4, g5, g6, g7, -⟩ := qchanInit_ok hu
  obtain ⟨r1, r2, r3, r4, r5, r6, r7⟩ := history_static u cu
  have hk : Chan.krausArray eigh (Chan.history ⟨sp₂, .kraus u⟩ cu) = .ok ops₂ := congrArg _ (r1.trans g2)
  have hq : Chan.numbQubits (Chan.history ⟨sp₂, .kraus u⟩ cu) = .ok (a₂, b₂) := by
    change Except.ok ((QChan.history u cu).numIn, (QChan.history u cu).numOut) = _
    rw [r3, r4, g4, g5]
  have hdi : Chan.dimIn (Chan.history ⟨sp₂, .kraus u⟩ cu) = .ok d₂ := congrArg _ (r5.trans g6)
  have hd : Chan.dimOut (Chan.history ⟨sp₂, .kraus u⟩ cu) = .ok e₂ := congrArg _ (r6.trans g7)
  have hsp : (Chan.history ⟨sp₂, .kraus u⟩ cu).sparse = sp₂ := rfl
  refine ⟨?_, ?_⟩
  · rw [chanAdd_eq hs, hk, hq, hdi, hsp]
    unfold QChan.add
    rw [p1, p2, p4, p6, r1, r2, r3, r5, h2, h3, h5, h7, g2, g3, g4, g6]
    simp only [bind, Except.bind]
    rcases serialConcat ops₁ ops₂ with x | B
    · rfl
    simp only
    rcases QChan.init (sp₁ || sp₂) B a₂ b₁ d₂ e₁ [] with x | k <;> rfl
  · rw [chanMul_eq hs, hk, hdi, hd, hsp, mul_inv hs hu]
    simp only [bind, Except.bind]
    rcases QChan.init (sp₁ || sp₂) (ops₁.kron ops₂) 1 1 (d₁ * d₂) (e₁ * e₂) [] with x | k <;> rfl

/-- C83.  A channel given by a Choi matrix is refused with `AssertionError` on the left of `+` and `*`. -/
theorem C83_left (u : Chan) :
    Chan.add chk eigh ⟨sp, .choi o⟩ u = .error .assertion ∧ Chan.mul chk eigh ⟨sp, .choi o⟩ u = .error .assertion :=
  ⟨rfl, rfl⟩

/-- What `A + B` is for a Choi matrix on the right. -/
theorem add_choi (heigh : eigh.Correct) (hs : QChan.init sp₁ ops₁ a₁ b₁ d₁ e₁ orth₁ = .ok s) (cs : List QChan.Call)
    (ho : ChoiObj.init chk C a₂ b₂ d₂ e₂ = .ok o) (hsq : C.rows = C.cols)
    (hpos : (C.mat (d₂ ^ a₂ * e₂ ^ b₂) (d₂ ^ a₂ * e₂ ^ b₂)).PosSemidef)
    (ht : Chan.add chk eigh (Chan.history ⟨sp₁, .kraus s⟩ cs) ⟨sp₂, .choi o⟩ = .ok t) :
    d₁ ^ a₁ = e₂ ^ b₂ ∧ ∃ (A : Arr3 ℂ) (k : KrausObj) (R : Matrix (Fin (d₂ ^ a₂ * e₂ ^ b₂)) (Fin (d₂ ^ a₂ * e₂ ^ b₂)) ℂ),
      t = ⟨sp₁ || sp₂, .kraus k⟩ ∧ QChan.init (sp₁ || sp₂) (ops₁.compose A) a₂ b₁ d₂ e₁ [] = .ok k ∧
      A.rows = e₂ ^ b₂ ∧ A.cols = d₂ ^ a₂ ∧
      Spec.choi (A.ops A.len (e₂ ^ b₂) (d₂ ^ a₂)) = C.mat (d₂ ^ a₂ * e₂ ^ b₂) (d₂ ^ a₂ * e₂ ^ b₂) - R ∧
      R.PosSemidef ∧ (((1 / 10 ^ 8 : ℝ) : ℂ) • (1 : Matrix _ _ ℂ) - R).PosSemidef ∧
      ((∀ i < d₂ ^ a₂ * e₂ ^ b₂, (eigh C).1 i ≤ 0 ∨ (1 : ℝ) / 10 ^ 8 < (eigh C).1 i) → R = 0) := by
  obtain ⟨R, r1, r2, r3, hA⟩ := choi_krausArray (sp := sp₂) eigh heigh ho hsq hpos
  obtain ⟨-, -, -, -, -, -, -, -, h9, h10, h11, -⟩ := qchanInit_ok hs
  rw [chanAdd_eq hs] at ht
  rcases hA with ⟨A, x1, x2, x3, x4, x5⟩ | ⟨hA, -⟩
  · rw [x1] at ht
    simp only [bind, Except.bind] at ht
    rcases hc : serialConcat ops₁ A with x | k
    · rw [hc] at ht; cases ht
    rw [hc] at ht
    obtain ⟨rfl, hd⟩ := serialConcat_ok h9 x2 hc
    obtain ⟨rfl, -⟩ := choiInit_ok ho
    simp only [Chan.numbQubits, Chan.dimIn] at ht
    rcases hk : QChan.init (sp₁ || sp₂) (ops₁.compose A) a₂ b₁ d₂ e₁ [] with x | k
    · rw [hk] at ht; cases ht
    rw [hk] at ht
    simp only [pure, Except.pure] at ht
    injection ht with ht
    exact ⟨by rw [← h10, hd, x3], A, k, R, ht.symm, hk, x3, x4, x5, r1, r2, r3⟩
  · rw [hA] at ht
    cases ht

/-- C83.  `A + B` for Kraus operators on the left and a Choi matrix `C` on the right: the output on `rho` is that of
`A` on the output of the channel with the Choi matrix `C - R`, where `0 ≤ R ≤ 1e-8` is the part of `C` that the
cut-off of `kraus_operators` drops. -/
theorem C83_add_cut (heigh : eigh.Correct) (hs : QChan.init sp₁ ops₁ a₁ b₁ d₁ e₁ orth₁ = .ok s) (cs : List QChan.Call)
    (ho : ChoiObj.init chk C a₂ b₂ d₂ e₂ = .ok o) (hsq : C.rows = C.cols)
    (hpos : (C.mat (d₂ ^ a₂ * e₂ ^ b₂) (d₂ ^ a₂ * e₂ ^ b₂)).PosSemidef)
    (ht : Chan.add chk eigh (Chan.history ⟨sp₁, .kraus s⟩ cs) ⟨sp₂, .choi o⟩ = .ok t) :
    ∃ R : Matrix (Fin (d₂ ^ a₂ * e₂ ^ b₂)) (Fin (d₂ ^ a₂ * e₂ ^ b₂)) ℂ,
      R.PosSemidef ∧ (((1 / 10 ^ 8 : ℝ) : ℂ) • (1 : Matrix _ _ ℂ) - R).PosSemidef ∧
      ∀ (c₂ c₃ : List QChan.Call), Spec.SafeUses sp₁ (c₂.map QChan.Call.uses ++ [1]) →
        Spec.SafeUses (sp₁ || sp₂) (c₃.map QChan.Call.uses ++ [1]) →
        ∀ rho x : Arr ℂ, rho.rows = d₂ ^ a₂ → rho.cols = d₂ ^ a₂ → x.rows = e₂ ^ b₂ → x.cols = e₂ ^ b₂ →
          x.mat (e₂ ^ b₂) (e₂ ^ b₂) = Spec.choiChannel (C.mat (d₂ ^ a₂ * e₂ ^ b₂) (d₂ ^ a₂ * e₂ ^ b₂) - R)
            (rho.mat (d₂ ^ a₂) (d₂ ^ a₂)) →
          ∃ y z, (Chan.channel (Chan.history ⟨sp₁, .kraus s⟩ c₂) x 1 false).1 = .ok y ∧
            (Chan.channel (t.history c₃) rho 1 false).1 = .ok z ∧ Arr.Same z y := by
  obtain ⟨hmid, A, k, R, rfl, hk, x3, x4, x5, r1, r2, -⟩ := add_choi heigh hs cs ho hsq hpos ht
  refine ⟨R, r1, r2, ?_⟩
  intro c₂ c₃ h₂ h₃ rho x hr hc hxr hxc hx
  obtain ⟨-, -, -, -, -, -, -, -, h9, h10, h11, -⟩ := qchanInit_ok hs
  obtain ⟨y, y1, y2, y3, y4⟩ := api_channel_one hs c₂ h₂ x (by rw [hmid]; exact hxr) (by rw [hmid]; exact hxc)
  obtain ⟨z, z1, z2, z3, z4⟩ := api_channel_one hk c₃ h₃ rho hr hc
  refine ⟨y, z, y1, z1, ?_⟩
  rw [Arr.same_iff_mat, z2, z3, y2, y3]
  refine ⟨rfl, rfl, ?_⟩
  rw [← x5, Spec.choiChannel_choi] at hx
  have hlen : (ops₁.compose A).len = ops₁.len * A.len := rfl
  rw [z4, hlen, compose_ops ops₁ A ops₁.len A.len (e₁ ^ b₁) (d₁ ^ a₁) (d₂ ^ a₂) h10 rfl, Spec.applyKraus_serial, y4]
  congr 1
  rw [hmid, ← hx]

/-- C83.  Without eigenvalues in `(0, 1e-8]` the sum of a channel `A` given by Kraus operators and a channel `B` given by a
Choi matrix is the composition: `(A + B).channel(rho, 1) = A.channel(B.channel(rho, 1), 1)`, after any calls on `A` and on
the sum. -/
theorem C83_add_choi (heigh : eigh.Correct) (hs : QChan.init sp₁ ops₁ a₁ b₁ d₁ e₁ orth₁ = .ok s) (cs : List QChan.Call)
    (ho : ChoiObj.init chk C a₂ a₂ d₂ e₂ = .ok o) (hsq : C.rows = C.cols)
    (hpos : (C.mat (d₂ ^ a₂ * e₂ ^ a₂) (d₂ ^ a₂ * e₂ ^ a₂)).PosSemidef)
    (hgap : ∀ i < d₂ ^ a₂ * e₂ ^ a₂, (eigh C).1 i ≤ 0 ∨ (1 : ℝ) / 10 ^ 8 < (eigh C).1 i)
    (ht : Chan.add chk eigh (Chan.history ⟨sp₁, .kraus s⟩ cs) ⟨sp₂, .choi o⟩ = .ok t)
    (c₂ c₃ : List QChan.Call) (h₂ : Spec.SafeUses sp₁ (c₂.map QChan.Call.uses ++ [1]))
    (h₃ : Spec.SafeUses (sp₁ || sp₂) (c₃.map QChan.Call.uses ++ [1]))
    (rho : Arr ℂ) (hr : rho.rows = d₂ ^ a₂) (hc : rho.cols = d₂ ^ a₂) :
    ∃ x y z, (Chan.channel ⟨sp₂, .choi o⟩ rho 1 false).1 = .ok x ∧
      (Chan.channel (Chan.history ⟨sp₁, .kraus s⟩ c₂) x 1 false).1 = .ok y ∧
      (Chan.channel (t.history c₃) rho 1 false).1 = .ok z ∧ Arr.Same z y := by
  obtain ⟨hmid, A, k, R, rfl, hk, x3, x4, x5, r1, r2, r3⟩ := add_choi heigh hs cs ho hsq hpos ht
  obtain ⟨x, w1, w2, w3, w4⟩ := C33_choi_channel ho hsq rho hr hc
  obtain ⟨-, -, -, -, -, -, -, -, h9, h10, h11, -⟩ := qchanInit_ok hs
  obtain ⟨y, y1, y2, y3, y4⟩ := api_channel_one hs c₂ h₂ x (by rw [hmid]; exact w2) (by rw [hmid]; exact w3)
  obtain ⟨z, z1, z2, z3, z4⟩ := api_channel_one hk c₃ h₃ rho hr hc
  refine ⟨x, y, z, w1, y1, z1, ?_⟩
  rw [Arr.same_iff_mat, z2, z3, y2, y3]
  refine ⟨rfl, rfl, ?_⟩
  rw [r3 hgap, sub_zero] at x5
  rw [← x5, Spec.choiChannel_choi] at w4
  have hlen : (ops₁.compose A).len = ops₁.len * A.len := rfl
  rw [z4, hlen, compose_ops ops₁ A ops₁.len A.len (e₁ ^ b₁) (d₁ ^ a₁) (d₂ ^ a₂) h10 rfl, Spec.applyKraus_serial, y4]
  congr 1
  rw [hmid, ← w4]

/-- C83.  For any number of uses: the sum does what the sum of `A` with any Kraus operators of the channel `B` does. -/
theorem C83_add_same (heigh : eigh.Correct) (hs : QChan.init sp₁ ops₁ a₁ b₁ d₁ e₁ orth₁ = .ok s) (cs cu : List QChan.Call)
    (ho : ChoiObj.init chk C a₂ b₂ d₂ e₂ = .ok o) (hsq : C.rows = C.cols)
    (hpos : (C.mat (d₂ ^ a₂ * e₂ ^ b₂) (d₂ ^ a₂ * e₂ ^ b₂)).PosSemidef)
    (hgap : ∀ i < d₂ ^ a₂ * e₂ ^ b₂, (eigh C).1 i ≤ 0 ∨ (1 : ℝ) / 10 ^ 8 < (eigh C).1 i)
    (ht : Chan.add chk eigh (Chan.history ⟨sp₁, .kraus s⟩ cs) ⟨sp₂, .choi o⟩ = .ok t)
    {sp₃ : Bool} {ops₂ : Arr3 ℂ} {orth₂ : List ℕ} {u : KrausObj} {t' : Chan}
    (hu : QChan.init sp₃ ops₂ a₂ b₂ d₂ e₂ orth₂ = .ok u)
    (hC : C.mat (d₂ ^ a₂ * e₂ ^ b₂) (d₂ ^ a₂ * e₂ ^ b₂) = Spec.choi (ops₂.ops ops₂.len (e₂ ^ b₂) (d₂ ^ a₂)))
    (ht' : Chan.add chk eigh (Chan.history ⟨sp₁, .kraus s⟩ cs) (Chan.history ⟨sp₃, .kraus u⟩ cu) = .ok t')
    (n : ℕ) (c c' : List QChan.Call) (h : Spec.SafeUses (sp₁ || sp₂) (c.map QChan.Call.uses ++ [n]))
    (h' : Spec.SafeUses (sp₁ || sp₃) (c'.map QChan.Call.uses ++ [n]))
    (rho : Arr ℂ) (hr : rho.rows = (d₂ ^ a₂) ^ n) (hc : rho.cols = (d₂ ^ a₂) ^ n) :
    ∃ x y, (Chan.channel (t.history c) rho n false).1 = .ok x ∧ (Chan.channel (t'.history c') rho n false).1 = .ok y ∧
      Arr.Same x y := by
  obtain ⟨hmid, A, k, R, rfl, hk, x3, x4, x5, r1, r2, r3⟩ := add_choi heigh hs cs ho hsq hpos ht
  rw [(C83_kraus hs hu cs cu).1] at ht'
  rcases hadd : QChan.add (QChan.history s cs) (QChan.history u cu) with w | v
  · rw [hadd] at ht'; cases ht'
  rw [hadd] at ht'
  injection ht' with ht'
  subst ht'
  obtain ⟨hv, -⟩ := add_inv hs hu cs cu hadd
  obtain ⟨-, -, -, -, -, -, -, -, h9, h10, h11, -⟩ := qchanInit_ok hs
  obtain ⟨-, -, -, -, -, -, -, -, g9, g10, g11, -⟩ := qchanInit_ok hu
  obtain ⟨x, x1, x2, x3', x4'⟩ := api_channel hk c n h rho hr hc
  obtain ⟨y, y1, y2, y3, y4⟩ := api_channel hv c' n h' rho hr hc
  refine ⟨x, y, x1, y1, ?_⟩
  rw [Arr.same_iff_mat, x2, x3', y2, y3]
  refine ⟨rfl, rfl, ?_⟩
  rw [x4', y4]
  refine Spec.sameChannel_tensorPow ?_ n _
  intro ρ
  have l1 : (ops₁.compose A).len = ops₁.len * A.len := rfl
  have l2 : (ops₁.compose ops₂).len = ops₁.len * ops₂.len := rfl
  rw [l1, l2, compose_ops ops₁ A ops₁.len A.len (e₁ ^ b₁) (d₁ ^ a₁) (d₂ ^ a₂) h10 rfl,
    compose_ops ops₁ ops₂ ops₁.len ops₂.len (e₁ ^ b₁) (d₁ ^ a₁) (d₂ ^ a₂) h10 rfl, Spec.applyKraus_serial,
    Spec.applyKraus_serial]
  congr 1
  rw [hmid, ← Spec.choiChannel_choi, ← Spec.choiChannel_choi (ops₂.ops _ _ _), x5, r3 hgap, sub_zero, hC]

/-- C83.  The sum is constructed when the output of `B` is the input of `A` and both preserve the trace exactly; otherwise
it raises `TypeError`. -/
theorem C83_add_constructed (heigh : eigh.Correct) (hs : QChan.init sp₁ ops₁ a₁ b₁ d₁ e₁ orth₁ = .ok s)
    (cs : List QChan.Call) (ho : ChoiObj.init chk C a₂ b₂ d₂ e₂ = .ok o) (hsq : C.rows = C.cols)
    (hpos : (C.mat (d₂ ^ a₂ * e₂ ^ b₂) (d₂ ^ a₂ * e₂ ^ b₂)).PosSemidef) (hd : 0 < d₂ ^ a₂)
    (hgap : ∀ i < d₂ ^ a₂ * e₂ ^ b₂, (eigh C).1 i ≤ 0 ∨ (1 : ℝ) / 10 ^ 8 < (eigh C).1 i)
    (h₁ : Spec.TracePreserving (ops₁.ops ops₁.len (e₁ ^ b₁) (d₁ ^ a₁)))
    (h₂ : Spec.traceOutput (C.mat (d₂ ^ a₂ * e₂ ^ b₂) (d₂ ^ a₂ * e₂ ^ b₂)) = 1) :
    (d₁ ^ a₁ = e₂ ^ b₂ → ∃ t, Chan.add chk eigh (Chan.history ⟨sp₁, .kraus s⟩ cs) ⟨sp₂, .choi o⟩ = .ok t) ∧
    (d₁ ^ a₁ ≠ e₂ ^ b₂ →
      Chan.add chk eigh (Chan.history ⟨sp₁, .kraus s⟩ cs) ⟨sp₂, .choi o⟩ = .error .type) := by
  obtain ⟨R, r1, r2, r3, hA⟩ := choi_krausArray (sp := sp₂) eigh heigh ho hsq hpos
  obtain ⟨-, -, -, -, -, -, -, -, h9, h10, h11, -⟩ := qchanInit_ok hs
  have hA : ∃ A, Chan.krausArray eigh ⟨sp₂, .choi o⟩ = .ok A ∧ 0 < A.len ∧ A.rows = e₂ ^ b₂ ∧ A.cols = d₂ ^ a₂ ∧
      Spec.choi (A.ops A.len (e₂ ^ b₂) (d₂ ^ a₂)) = C.mat (d₂ ^ a₂ * e₂ ^ b₂) (d₂ ^ a₂ * e₂ ^ b₂) := by
    rcases hA with ⟨A, x1, x2, x3, x4, x5⟩ | ⟨-, hA⟩
    · exact ⟨A, x1, x2, x3, x4, by rw [x5, r3 hgap, sub_zero]⟩
    · exfalso
      rw [hA, r3 hgap] at h₂
      have := congrFun (congrFun h₂ ⟨0, hd⟩) ⟨0, hd⟩
      simp [Spec.traceOutput] at this
  obtain ⟨A, x1, x2, x3, x4, x5⟩ := hA
  obtain ⟨rfl, -⟩ := choiInit_ok ho
  rw [chanAdd_eq hs, x1]
  simp only [bind, Except.bind, Chan.numbQubits, Chan.dimIn]
  refine ⟨fun hmid => ?_, fun hmid => ?_⟩
  · have hser : serialConcat ops₁ A = .ok (ops₁.compose A) := by
      unfold serialConcat
      rw [if_neg]
      rintro ⟨-, -, h⟩
      exact h (by rw [x3, h10, hmid])
    rw [hser]
    simp only
    have : ∃ k, QChan.init (sp₁ || sp₂) (ops₁.compose A) a₂ b₁ d₂ e₁ [] = .ok k := by
      refine init_exact _ _ _ _ _ _ _ (Nat.mul_pos h9 x2) x4 h11 ?_
      have l1 : (ops₁.compose A).len = ops₁.len * A.len := rfl
      rw [l1, compose_ops ops₁ A ops₁.len A.len (e₁ ^ b₁) (d₁ ^ a₁) (d₂ ^ a₂) h10 rfl]
      rw [hmid] at h₁ ⊢
      refine Spec.tp_comp _ _ h₁ ?_
      rw [Spec.tp_iff_traceOutput, x5]
      exact h₂
    obtain ⟨k, hk⟩ := this
    rw [hk]
    exact ⟨_, rfl⟩
  · have hser : serialConcat ops₁ A = .error .type := by
      unfold serialConcat
      rw [if_pos ⟨h9.ne', x2.ne', by rw [x3, h10]; exact Ne.symm hmid⟩]
    rw [hser]

/-- What `A * B` is for a Choi matrix on the right. -/
theorem mul_choi (heigh : eigh.Correct) (hs : QChan.init sp₁ ops₁ a₁ b₁ d₁ e₁ orth₁ = .ok s) (cs : List QChan.Call)
    (ho : ChoiObj.init chk C a₂ b₂ d₂ e₂ = .ok o) (hsq : C.rows = C.cols)
    (hpos : (C.mat (d₂ ^ a₂ * e₂ ^ b₂) (d₂ ^ a₂ * e₂ ^ b₂)).PosSemidef)
    (ht : Chan.mul chk eigh (Chan.history ⟨sp₁, .kraus s⟩ cs) ⟨sp₂, .choi o⟩ = .ok t) :
    ∃ (A : Arr3 ℂ) (k : KrausObj) (R : Matrix (Fin (d₂ ^ a₂ * e₂ ^ b₂)) (Fin (d₂ ^ a₂ * e₂ ^ b₂)) ℂ),
      t = ⟨sp₁ || sp₂, .kraus k⟩ ∧
      QChan.init (sp₁ || sp₂) (ops₁.kron A) 1 1 (d₁ * d₂) (e₁ * e₂) [] = .ok k ∧ 0 < A.len ∧
      A.rows = e₂ ^ b₂ ∧ A.cols = d₂ ^ a₂ ∧
      Spec.choi (A.ops A.len (e₂ ^ b₂) (d₂ ^ a₂)) = C.mat (d₂ ^ a₂ * e₂ ^ b₂) (d₂ ^ a₂ * e₂ ^ b₂) - R ∧
      ((∀ i < d₂ ^ a₂ * e₂ ^ b₂, (eigh C).1 i ≤ 0 ∨ (1 : ℝ) / 10 ^ 8 < (eigh C).1 i) → R = 0) := by
  obtain ⟨R, r1, r2, r3, hA⟩ := choi_krausArray (sp := sp₂) eigh heigh ho hsq hpos
  rw [chanMul_eq hs] at ht
  rcases hA with ⟨A, x1, x2, x3, x4, x5⟩ | ⟨hA, -⟩
  · rw [x1] at ht
    obtain ⟨rfl, -⟩ := choiInit_ok ho
    simp only [bind, Except.bind, Chan.dimIn, Chan.dimOut] at ht
    rcases hk : QChan.init (sp₁ || sp₂) (ops₁.kron A) 1 1 (d₁ * d₂) (e₁ * e₂) [] with x | k
    · rw [hk] at ht; cases ht
    rw [hk] at ht
    simp only [pure, Except.pure] at ht
    injection ht with ht
    exact ⟨A, k, R, ht.symm, hk, x2, x3, x4, x5, r3⟩
  · rw [hA] at ht
    cases ht

/-- C83.  Without eigenvalues in `(0, 1e-8]` the product of `A` and a channel `B` given by a Choi matrix acts on products as
`A` and `B` do: `(A * B).channel(kron(rho, sigma), 1) = kron(A.channel(rho, 1), B.channel(sigma, 1))`. -/
theorem C83_mul_choi (heigh : eigh.Correct) (hs : QChan.init sp₁ ops₁ a₁ b₁ d₁ e₁ orth₁ = .ok s) (cs : List QChan.Call)
    (ho : ChoiObj.init chk C a₂ a₂ d₂ e₂ = .ok o) (hsq : C.rows = C.cols)
    (hpos : (C.mat (d₂ ^ a₂ * e₂ ^ a₂) (d₂ ^ a₂ * e₂ ^ a₂)).PosSemidef)
    (hgap : ∀ i < d₂ ^ a₂ * e₂ ^ a₂, (eigh C).1 i ≤ 0 ∨ (1 : ℝ) / 10 ^ 8 < (eigh C).1 i)
    (ht : Chan.mul chk eigh (Chan.history ⟨sp₁, .kraus s⟩ cs) ⟨sp₂, .choi o⟩ = .ok t)
    (c₂ c₃ : List QChan.Call) (h₂ : Spec.SafeUses sp₁ (c₂.map QChan.Call.uses ++ [1]))
    (h₃ : Spec.SafeUses (sp₁ || sp₂) (c₃.map QChan.Call.uses ++ [1]))
    (rho sigma : Arr ℂ) (hr : rho.rows = d₁ ^ a₁) (hc : rho.cols = d₁ ^ a₁)
    (hr' : sigma.rows = d₂ ^ a₂) (hc' : sigma.cols = d₂ ^ a₂) :
    ∃ x y z, (Chan.channel (Chan.history ⟨sp₁, .kraus s⟩ c₂) rho 1 false).1 = .ok x ∧
      (Chan.channel ⟨sp₂, .choi o⟩ sigma 1 false).1 = .ok y ∧
      (Chan.channel (t.history c₃) (rho.kron sigma) 1 false).1 = .ok z ∧ Arr.Same z (x.kron y) := by
  obtain ⟨A, k, R, rfl, hk, g9, g11, g10, x5, r3⟩ := mul_choi heigh hs cs ho hsq hpos ht
  obtain ⟨-, -, -, -, -, -, -, -, h9, h10, h11, -⟩ := qchanInit_ok hs
  obtain ⟨-, -, -, -, -, -, -, -, k9, k10, k11, -⟩ := qchanInit_ok hk
  rw [pow_one] at k10 k11
  have kc : d₁ ^ a₁ * d₂ ^ a₂ = d₁ * d₂ := by rw [← k10, ← h10, ← g10]; rfl
  have kr : e₁ ^ b₁ * e₂ ^ a₂ = e₁ * e₂ := by rw [← k11, ← h11, ← g11]; rfl
  obtain ⟨x, x1, x2, x3, x4⟩ := api_channel_one hs c₂ h₂ rho hr hc
  obtain ⟨y, y1, y2, y3, y4⟩ := C33_choi_channel ho hsq sigma hr' hc'
  obtain ⟨z, z1, z2, z3, z4⟩ := api_channel_one hk c₃ h₃ (rho.kron sigma)
    (by simp only [Arr.rows_kron, hr, hr', pow_one]; exact kc)
    (by simp only [Arr.cols_kron, hc, hc', pow_one]; exact kc)
  refine ⟨x, y, z, x1, y1, z1, ?_⟩
  rw [pow_one] at z2 z3
  rw [pow_one, pow_one] at z4
  rw [Arr.same_iff_mat, z2, z3, Arr.rows_kron, Arr.cols_kron, x2, x3, y2, y3, kr]
  refine ⟨rfl, rfl, ?_⟩
  rw [r3 hgap, sub_zero] at x5
  rw [← x5, Spec.choiChannel_choi] at y4
  have hlen : (ops₁.kron A).len = ops₁.len * A.len := rfl
  rw [z4, hlen]
  rw [← kc, ← kr, kron_ops ops₁ A ops₁.len A.len (e₁ ^ b₁) (e₂ ^ a₂) (d₁ ^ a₁) (d₂ ^ a₂) rfl g11 g10,
    arr_kron_mat rho sigma _ _ _ _ hr' hc', arr_kron_mat x y _ _ _ _ y2 y3, Spec.applyKraus_kron, x4, y4]

/-- C83.  The product of exactly trace preserving channels of one particle each is constructed. -/
theorem C83_mul_constructed (heigh : eigh.Correct) (hs : QChan.init sp₁ ops₁ 1 1 d₁ e₁ orth₁ = .ok s)
    (cs : List QChan.Call) (ho : ChoiObj.init chk C 1 1 d₂ e₂ = .ok o) (hsq : C.rows = C.cols)
    (hpos : (C.mat (d₂ ^ 1 * e₂ ^ 1) (d₂ ^ 1 * e₂ ^ 1)).PosSemidef) (hd : 0 < d₂ ^ 1)
    (hgap : ∀ i < d₂ ^ 1 * e₂ ^ 1, (eigh C).1 i ≤ 0 ∨ (1 : ℝ) / 10 ^ 8 < (eigh C).1 i)
    (h₁ : Spec.TracePreserving (ops₁.ops ops₁.len (e₁ ^ 1) (d₁ ^ 1)))
    (h₂ : Spec.traceOutput (C.mat (d₂ ^ 1 * e₂ ^ 1) (d₂ ^ 1 * e₂ ^ 1)) = 1) :
    ∃ t, Chan.mul chk eigh (Chan.history ⟨sp₁, .kraus s⟩ cs) ⟨sp₂, .choi o⟩ = .ok t ∧
      t.dimIn = .ok (d₁ * d₂) ∧ t.dimOut = .ok (e₁ * e₂) ∧ t.numbQubits = .ok (1, 1) := by
  obtain ⟨R, r1, r2, r3, hA⟩ := choi_krausArray (sp := sp₂) eigh heigh ho hsq hpos
  obtain ⟨-, -, -, -, -, -, -, -, h9, h10, h11, -⟩ := qchanInit_ok hs
  have hA : ∃ A, Chan.krausArray eigh ⟨sp₂, .choi o⟩ = .ok A ∧ 0 < A.len ∧ A.rows = e₂ ^ 1 ∧ A.cols = d₂ ^ 1 ∧
      Spec.choi (A.ops A.len (e₂ ^ 1) (d₂ ^ 1)) = C.mat (d₂ ^ 1 * e₂ ^ 1) (d₂ ^ 1 * e₂ ^ 1) := by
    rcases hA with ⟨A, x1, x2, x3, x4, x5⟩ | ⟨-, hA⟩
    · exact ⟨A, x1, x2, x3, x4, by rw [x5, r3 hgap, sub_zero]⟩
    · exfalso
      rw [hA, r3 hgap] at h₂
      have := congrFun (congrFun h₂ ⟨0, hd⟩) ⟨0, hd⟩
      simp [Spec.traceOutput] at this
  obtain ⟨A, x1, x2, x3, x4, x5⟩ := hA
  obtain ⟨rfl, -⟩ := choiInit_ok ho
  rw [chanMul_eq hs, x1]
  simp only [bind, Except.bind, Chan.dimIn, Chan.dimOut]
  have kc : d₁ ^ 1 * d₂ ^ 1 = (d₁ * d₂) ^ 1 := by simp
  have kr : e₁ ^ 1 * e₂ ^ 1 = (e₁ * e₂) ^ 1 := by simp
  have : ∃ k, QChan.init (sp₁ || sp₂) (ops₁.kron A) 1 1 (d₁ * d₂) (e₁ * e₂) [] = .ok k := by
    refine init_exact _ _ _ _ _ _ _ (Nat.mul_pos h9 x2)
      (by rw [← kc, ← h10, ← x4]; rfl) (by rw [← kr, ← h11, ← x3]; rfl) ?_
    have l1 : (ops₁.kron A).len = ops₁.len * A.len := rfl
    rw [l1, ← kc, ← kr, kron_ops ops₁ A ops₁.len A.len (e₁ ^ 1) (e₂ ^ 1) (d₁ ^ 1) (d₂ ^ 1) rfl x3 x4]
    refine Spec.tp_kron _ _ h₁ ?_
    rw [Spec.tp_iff_traceOutput, x5]
    exact h₂
  obtain ⟨k, hk⟩ := this
  obtain ⟨-, -, -, q4, q5, q6, q7, -⟩ := qchanInit_ok hk
  rw [hk]
  refine ⟨_, rfl, congrArg _ q6, congrArg _ q7, ?_⟩
  change Except.ok (k.numIn, k.numOut) = _
  rw [q4, q5]

end

theorem dephChoi_mat : dephChoi.mat (2 ^ 1 * 2 ^ 1) (2 ^ 1 * 2 ^ 1) =
    diagonal fun i : Fin (2 ^ 1 * 2 ^ 1) => if i.1 = 0 ∨ i.1 = 3 then (1 : ℂ) else 0 := by
  unfold dephChoi
  rw [show (2 ^ 1 * 2 ^ 1 : ℕ) = 2 * 2 from rfl, Arr.ofMat_mat]
  ext i j
  simp only [Spec.choi, Matrix.sum_apply, vecMulVec_apply, Fin.sum_univ_two, Spec.vec, Arr3.ops, dephOps, Pi.star_apply]
  revert i j
  change ∀ i j : Fin 4, _
  intro i j
  fin_cases i <;> fin_cases j <;> simp [Fin.divNat, Fin.modNat, diagonal]

/-- The conditions of C83 are met: the Choi matrix of the dephasing channel has the eigenvalues 0 and 1 for every correct
routine, and the sum and the product with it on the right are constructed. -/
example (eigh : Eigh) (heigh : eigh.Correct) : ∃ (k : KrausObj) (o : ChoiObj) (t t' : Chan),
    QChan.init false dephOps 1 1 2 2 [] = .ok k ∧
    ChoiObj.init ⟨fun _ _ _ => true, fun _ _ _ => true⟩ dephChoi 1 1 2 2 = .ok o ∧
    Chan.add ⟨fun _ _ _ => true, fun _ _ _ => true⟩ eigh ⟨false, .kraus k⟩ ⟨false, .choi o⟩ = .ok t ∧
    Chan.mul ⟨fun _ _ _ => true, fun _ _ _ => true⟩ eigh ⟨false, .kraus k⟩ ⟨false, .choi o⟩ = .ok t' := by
  obtain ⟨k, hk⟩ := deph_ok false []
  have ho : ChoiObj.init ⟨fun _ _ _ => true, fun _ _ _ => true⟩ dephChoi 1 1 2 2 = .ok ⟨dephChoi, 1, 1, 2, 2⟩ :=
    rfl
  have hC : dephChoi.mat (2 ^ 1 * 2 ^ 1) (2 ^ 1 * 2 ^ 1) = Spec.choi (dephOps.ops dephOps.len (2 ^ 1) (2 ^ 1)) :=
    Arr.ofMat_mat _
  have hpos : (dephChoi.mat (2 ^ 1 * 2 ^ 1) (2 ^ 1 * 2 ^ 1)).PosSemidef := by rw [hC]; exact choi_posSemidef _
  have htp : Spec.traceOutput (dephChoi.mat (2 ^ 1 * 2 ^ 1) (2 ^ 1 * 2 ^ 1)) = 1 := by
    rw [hC]
    exact (Spec.tp_iff_traceOutput _).1 dephOps_tp
  have hproj : dephChoi.mat (2 ^ 1 * 2 ^ 1) (2 ^ 1 * 2 ^ 1) * dephChoi.mat (2 ^ 1 * 2 ^ 1) (2 ^ 1 * 2 ^ 1) =
      dephChoi.mat (2 ^ 1 * 2 ^ 1) (2 ^ 1 * 2 ^ 1) := by
    rw [dephChoi_mat, diagonal_mul_diagonal]
    congr 1
    funext i
    split <;> simp
  have hgap : ∀ i < 2 ^ 1 * 2 ^ 1, (eigh dephChoi).1 i ≤ 0 ∨ (1 : ℝ) / 10 ^ 8 < (eigh dephChoi).1 i := by
    obtain ⟨-, -, -, v4, v5⟩ := heigh dephChoi (2 ^ 1 * 2 ^ 1) rfl rfl hpos.isHermitian
    intro i hi
    set V := (eigh dephChoi).2.mat (2 ^ 1 * 2 ^ 1) (2 ^ 1 * 2 ^ 1)
    set D := diagonal fun i : Fin (2 ^ 1 * 2 ^ 1) => ((eigh dephChoi).1 i : ℂ) with hD
    have h1 : V * (D * D) = V * D := by
      rw [← Matrix.mul_assoc, ← v5, Matrix.mul_assoc, ← v5, ← Matrix.mul_assoc, hproj]
    have h2 : D * D = D := by
      have := congrArg (Vᴴ * ·) h1
      simpa only [← Matrix.mul_assoc, v4, Matrix.one_mul] using this
    have h3 := congrFun (congrFun h2 ⟨i, hi⟩) ⟨i, hi⟩
    rw [hD, diagonal_mul_diagonal, diagonal_apply_eq, diagonal_apply_eq] at h3
    have h4 : (eigh dephChoi).1 i * (eigh dephChoi).1 i = (eigh dephChoi).1 i := by exact_mod_cast h3
    have h6 : (eigh dephChoi).1 i = 0 ∨ (eigh dephChoi).1 i = 1 := by
      have : (eigh dephChoi).1 i * ((eigh dephChoi).1 i - 1) = 0 := by linarith
      rcases mul_eq_zero.1 this with h | h
      · exact Or.inl h
      · exact Or.inr (by linarith)
    rcases h6 with h5 | h5
    · left; rw [h5]
    · right; rw [h5]; norm_num
  obtain ⟨t, ht⟩ := (C83_add_constructed (sp₂ := false) heigh hk [] ho rfl hpos (by norm_num) hgap dephOps_tp htp).1 rfl
  obtain ⟨t', ht', -⟩ := C83_mul_constructed (sp₂ := false) heigh hk [] ho rfl hpos (by norm_num) hgap dephOps_tp htp
  exact ⟨k, _, t, t', hk, ho, ht, ht'⟩

end PyQ
