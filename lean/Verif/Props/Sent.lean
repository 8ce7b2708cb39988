import Verif.Lemmas.Sent
import Verif.Lemmas.Measure
import Verif.Lemmas.Examples
import Verif.Props.CircuitGuards

/-!
# C88: the state of the register when a circuit builder raises

`Sent` holds the gates the engine has received when the call ends, with or without an exception.
-/

namespace PyQ

open Spec

/-- A call that returns sent exactly its gates; a call that raises raised this exception. -/
def Sent.Agrees (t : Sent) : Except PyErr (List Gate) → Prop
  | .ok gs => t = ⟨gs, none⟩
  | .error e => t.raised = some e

theorem agrees_of_coll {l : List (Except PyErr (List Gate))} {x : Except PyErr (List Gate)} (h : coll l = x) :
    (sendAll l).Agrees x := by
  rcases x with e | gs
  · exact (sendAll_coll l).2 e h
  · exact (sendAll_coll l).1 gs h

/-- **C88, calls that return**.  The step-by-step description of the five circuit builders and the description of
the calls that return agree: same gates, same exception. -/
theorem C88_returns (c : StabCode) (len active : ℕ) (δ : List ℤ) (a : StabArg) (add : Bool) (op : List Char) :
    (encodingSent c len δ).Agrees (encodingCircuit c len δ) ∧
    (applySent len a).Agrees (applyStabilizerCircuit len a) ∧
    (decodingSent c len add).Agrees (decodingCircuit c len add) ∧
    (logicalSent c len op).Agrees (logicalCircuit c len op) ∧
    (syndromeSent c active len a).Agrees ((syndromeCircuit c active len a).map Prod.fst) := by
  refine ⟨?_, ?_, ?_, ?_, ?_⟩
  · unfold encodingSent encodingCircuit pyAssert
    by_cases h1 : δ.length = c.k
    · rw [if_neg (by simpa using h1), if_pos h1, ok_bind']
      by_cases h2 : len = c.n
      · rw [if_neg (by simpa using h2), if_pos h2, ok_bind']
        apply agrees_of_coll
        rw [coll_append, coll_append, coll_map, coll_flatMap]
        have e1 : coll (if c.rank < c.stab.rows then
              if c.logicalX.rows < c.k then [.error .index]
              else [.ok ((List.range c.k).reverse.flatMap (logicalXGates c))]
            else []) = (if c.rank < c.stab.rows then
              if c.logicalX.rows < c.k then .error .index else .ok ((List.range c.k).reverse.flatMap (logicalXGates c))
            else .ok []) := by
          split_ifs
          · rfl
          · rw [coll_single]
          · rfl
        have e2 : (fun i => coll (.ok [⟨none, .H, i⟩] :: steps (binaryRepToPauliStr (c.normalForm.row i)) fun s =>
            s.zipIdx.map (generatorLetter len i))) = generatorGates c len := by
          funext i
          rw [coll_cons_ok, coll_steps]
          unfold generatorGates
          rcases binaryRepToPauliStr (c.normalForm.row i) with e | s
          · rfl
          · rw [ok_bind', ok_bind', coll_map]
            rcases s.zipIdx.mapM (generatorLetter len i) with e | l
            · rfl
            · rfl
        rw [e1, e2]
        rcases δ.zipIdx.mapM (prepareBit c.n c.k) with e | x
        · rfl
        · rcases (if c.rank < c.stab.rows then
              if c.logicalX.rows < c.k then .error .index else .ok ((List.range c.k).reverse.flatMap (logicalXGates c))
            else .ok [] : Except PyErr (List Gate)) with e | y
          · rfl
          · rcases (List.range c.rank).mapM (generatorGates c len) with e | z
            · rfl
            · rfl
      · rw [if_pos (by simpa using h2), if_neg h2]; rfl
    · rw [if_pos (by simpa using h1), if_neg h1]; rfl
  · unfold applySent applyStabilizerCircuit
    rcases a with s | b
    · rfl
    · apply agrees_of_coll
      rw [coll_steps]
      congr 1
      funext s
      rw [coll_map]
  · unfold decodingSent decodingCircuit
    apply agrees_of_coll
    rw [coll_append, coll_flatMap, coll_flatMap]
    generalize (if add then len else c.n) = base
    generalize (if add then len + c.k else len) = total
    have e1 : (fun i => coll (steps (rowAt c.logicalZ i) fun z => (z.drop c.n).zipIdx.map fun vj =>
        if vj.1 = 1 then do return [(⟨some (← onWire len vj.2), .X, ← onWire total (base + i)⟩ : Gate)] else .ok [])) =
        copyGates c len base total := by
      funext i
      rw [coll_steps]
      unfold copyGates
      congr 1
      funext z
      rw [coll_map]
    have e2 : (fun i => coll (steps (rowAt c.logicalX i) fun x => steps (onWire total (base + i)) fun a =>
        steps (binaryRepToPauliStr x) fun s => s.zipIdx.map fun cj => letterGates len (some a) cj.2 cj.1)) =
        uncomputeGates c len base total := by
      funext i
      rw [coll_steps]
      unfold uncomputeGates
      congr 1
      funext x
      rw [coll_steps]
      congr 1
      funext a
      rw [coll_steps]
      congr 1
      funext s
      rw [coll_map]
      rfl
    rw [e1, e2]
    dsimp only
    rcases (List.range c.k).mapM (copyGates c len base total) with e | x
    · rfl
    · rcases (List.range c.k).mapM (uncomputeGates c len base total) with e | y
      · rfl
      · rfl
  · unfold logicalSent logicalCircuit
    match op with
    | [] => rfl
    | [_] => rfl
    | _ :: _ :: _ :: _ => rfl
    | [p, d] =>
      simp only
      apply agrees_of_coll
      rw [coll_steps]
      simp only [bind_assoc]
      congr 1
      funext _
      congr 1
      funext i
      congr 1
      funext _
      congr 1
      funext row
      congr 1
      funext s
      rw [coll_map]
      rfl
  · unfold syndromeSent syndromeCircuit
    by_cases h : active ≠ c.n ∧ active ≠ c.n + 1
    · rw [if_pos h, if_pos h]; rfl
    · rw [if_neg h, if_neg h]
      apply agrees_of_coll
      rw [coll_steps]
      rcases (if active = c.n then .ok len else if len = 0 then .error .index else .ok (len - 1) : Except PyErr ℕ) with e | anc
      · rfl
      · rw [ok_bind', ok_bind', coll_steps]
        have key : ∀ x : Except PyErr (List Char), (x >>= fun s => coll (.ok [⟨none, .H, anc⟩] ::
              s.zipIdx.map (syndromeLetter len anc) ++ [.ok [⟨none, .H, anc⟩]])) =
            Except.map Prod.fst (x >>= fun s => s.zipIdx.mapM (syndromeLetter len anc) >>= fun l =>
              pure (⟨none, .H, anc⟩ :: l.flatten ++ [⟨none, .H, anc⟩], anc)) := by
          intro x
          rcases x with e | s
          · rfl
          · rw [ok_bind', ok_bind', List.cons_append, coll_cons_ok, coll_append, coll_map, coll_single]
            rcases s.zipIdx.mapM (syndromeLetter len anc) with e | l
            · rfl
            · rfl
        rcases a with s | b
        · exact key (.ok s)
        · exact key (binaryRepToPauliStr b)

/-! ### Checks made before anything is sent -/

/-- **C88, calls that leave the register alone**.  A wrong number of bits or qubits (`encoding_circuit`), a string given to
`apply_stabilizer_circuit`, a bad name (`logical_circuit`), a wrong number of active qubits or a row that is no Pauli
operator (`single_syndrome_measurement`) raises before the first gate. -/
theorem C88_untouched (c : StabCode) (len active : ℕ) (δ : List ℤ) (a : StabArg) (str op : List Char) (b : List ℤ) (e : PyErr) :
    (δ.length ≠ c.k ∨ len ≠ c.n → encodingSent c len δ = ⟨[], some .assertion⟩) ∧
    applySent len (.str str) = ⟨[], some .unboundLocal⟩ ∧
    (binaryRepToPauliStr b = .error e → applySent len (.bin b) = ⟨[], some e⟩) ∧
    (¬ GoodName c.k op → (logicalSent c len op).gates = [] ∧ (logicalSent c len op).raised ≠ none) ∧
    (active ≠ c.n ∧ active ≠ c.n + 1 → syndromeSent c active len a = ⟨[], some .type⟩) ∧
    (binaryRepToPauliStr b = .error e → (syndromeSent c active len (.bin b)).gates = []) := by
  refine ⟨?_, rfl, ?_, ?_, ?_, ?_⟩
  · intro h
    unfold encodingSent
    by_cases h1 : δ.length = c.k
    · rw [if_neg (by simpa using h1), if_pos (h.resolve_left (by simpa using h1))]
    · rw [if_pos h1]
  · intro h
    unfold applySent
    simp only
    rw [h]; rfl
  · intro h
    unfold logicalSent
    match op with
    | [] => exact ⟨rfl, by simp⟩
    | [_] => exact ⟨rfl, by simp⟩
    | _ :: _ :: _ :: _ => exact ⟨rfl, by simp⟩
    | [p, d] =>
      simp only
      unfold pyAssert
      by_cases hp : p = 'X' ∨ p = 'Y' ∨ p = 'Z'
      · rw [if_pos hp, ok_bind']
        rcases intOfChar_cases d with ⟨i, hi, hdi, he⟩ | ⟨-, he⟩
        · rw [he, ok_bind', if_neg, error_bind']
          · exact ⟨rfl, by simp [steps, sendAll]⟩
          · intro hlt
            exact h ⟨p, i, by rw [hdi], hp, hi, hlt⟩
        · rw [he, error_bind']
          exact ⟨rfl, by simp [steps, sendAll]⟩
      · rw [if_neg hp, error_bind']
        exact ⟨rfl, by simp [steps, sendAll]⟩
  · intro h
    unfold syndromeSent
    rw [if_pos h]
  · intro h
    unfold syndromeSent
    split_ifs <;> simp [h, steps, sendAll]

/-! ### `encoding_circuit` -/

/-- **C88, a bad entry in the state**.  When an entry other than 0 and 1 comes after the entries `pre`, `encoding_circuit`
raises `AssertionError`, but the bits `pre` have already been written to the register: `|0...0⟩` has become the basis state
with `pre` on the qubits from `n - k` on. -/
theorem C88_encoding_state (c : StabCode) (hkn : c.k ≤ c.n) (pre post : List ℤ) (v : ℤ) (hpre : IsBinary pre)
    (hv : v ≠ 0 ∧ v ≠ 1) (hlen : (pre ++ v :: post).length = c.k) :
    (encodingSent c c.n (pre ++ v :: post)).raised = some .assertion ∧
    run (encodingSent c c.n (pre ++ v :: post)).gates (ket (0 : Fin c.n → ZMod 2)) =
      ket fun j => if c.n - c.k ≤ j.val then ((pre.getD (j.val - (c.n - c.k)) 0 : ℤ) : ZMod 2) else 0 := by
  have key : encodingSent c c.n (pre ++ v :: post) = ⟨(pre.zipIdx).flatMap (prepG (c.n - c.k)), some .assertion⟩ := by
    unfold encodingSent
    rw [if_neg (by simpa using hlen), if_neg (by simp), List.zipIdx_append, List.map_append]
    have h1 : pre.zipIdx.map (prepareBit c.n c.k) = (pre.zipIdx.map (prepG (c.n - c.k))).map .ok := by
      rw [List.map_map]
      apply List.map_congr_left
      rintro ⟨a, i⟩ ha
      have ham := hpre a (List.fst_mem_of_mem_zipIdx ha)
      unfold prepareBit pyAssert prepG
      simp only [Function.comp]
      rw [if_pos ham]; rfl
    have h2 : ∀ o, prepareBit c.n c.k (v, o) = .error .assertion := by
      intro o
      unfold prepareBit pyAssert
      simp only
      rw [if_neg (by omega)]; rfl
    rw [h1, List.zipIdx_cons, List.map_cons, h2, List.append_assoc, List.append_assoc, List.cons_append, sendAll_error,
      ← List.flatMap_def]
  rw [key]
  refine ⟨rfl, ?_⟩
  simp only [List.length_append, List.length_cons] at hlen
  rw [show pre.zipIdx = pre.zipIdx 0 from rfl, run_prepG (c.n - c.k) 0 pre hpre (by omega)]
  congr 1
  funext j
  simp

/-- **C88 is false as stated for `encoding_circuit`**: the call that raises has changed the register. -/
theorem C88_untouched_refuted : ∃ c, stabInit (.rows [[1, 1, 1, 1, 0, 0, 0, 0], [0, 0, 0, 0, 1, 1, 1, 1]]) 4 2 none = .ok c ∧
    (encodingSent c 4 [1, 2]).raised = some .assertion ∧
    run (encodingSent c 4 [1, 2]).gates (ket (0 : Fin 4 → ZMod 2)) = ket ![0, 0, 1, 0] ∧
    ket (![0, 0, 1, 0] : Fin 4 → ZMod 2) ≠ ket 0 := by
  obtain ⟨c, h1, hb, hi, -⟩ := code422
  obtain ⟨hn, hk, -⟩ := accepted_facts h1 hb hi
  obtain ⟨n, k, st, ps, nf, rk, lx, lz⟩ := c
  simp only at hn hk
  subst hn hk
  obtain ⟨g1, g2⟩ := C88_encoding_state ⟨4, 2, st, ps, nf, rk, lx, lz⟩ (show 2 ≤ 4 by decide) [1] [] 2 (by unfold IsBinary; decide) (by decide) rfl
  refine ⟨_, h1, g1, g2.trans ?_, ?_⟩
  · congr 1
    show (fun j : Fin 4 => if 4 - 2 ≤ j.val then ((([1] : List ℤ).getD (j.val - (4 - 2)) 0 : ℤ) : ZMod 2) else 0) = ![0, 0, 1, 0]
    decide
  · intro h
    have := congrFun h 0
    unfold ket at this
    rw [if_neg (by decide), if_pos rfl] at this
    exact zero_ne_one this

/-! ### Registers that are too short -/

/-- The exception at the first letter of the part of a string beyond the register: `ValueError` for Y, `IndexError` for X
and Z, none if there is no such letter. -/
def firstFault : List Char → Option PyErr
  | [] => none
  | c :: r => if c = 'X' ∨ c = 'Z' then some .index else if c = 'Y' then some .value else firstFault r

theorem letters_beyond {len : ℕ} (f : Char × ℕ → Except PyErr (List Gate)) (s : List Char) (o : ℕ) (ho : len ≤ o)
    (hX : ∀ ch, ch = 'X' ∨ ch = 'Z' → ∀ q, len ≤ q → f (ch, q) = .error .index) (hY : ∀ q, len ≤ q → f ('Y', q) = .error .value)
    (hI : ∀ ch, ¬ (ch = 'X' ∨ ch = 'Z') → ch ≠ 'Y' → ∀ q, f (ch, q) = .ok []) :
    sendAll ((s.zipIdx o).map f) = ⟨[], firstFault s⟩ := by
  induction s generalizing o with
  | nil => rfl
  | cons a s ih =>
    rw [List.zipIdx_cons, List.map_cons]
    unfold firstFault
    by_cases h1 : a = 'X' ∨ a = 'Z'
    · rw [if_pos h1, hX a h1 o ho]; rfl
    · rw [if_neg h1]
      by_cases h2 : a = 'Y'
      · rw [if_pos h2, h2, hY o ho]; rfl
      · rw [if_neg h2, hI a h1 h2]
        simp only [sendAll]
        rw [ih (o + 1) (by omega)]; rfl

theorem letters_short {len : ℕ} (f : Char × ℕ → Except PyErr (List Gate)) (g : ℕ → Char → List Gate) (s : List Char) (o : ℕ)
    (ho : o ≤ len) (hok : ∀ ch q, q < len → f (ch, q) = .ok (g q ch))
    (hX : ∀ ch, ch = 'X' ∨ ch = 'Z' → ∀ q, len ≤ q → f (ch, q) = .error .index) (hY : ∀ q, len ≤ q → f ('Y', q) = .error .value)
    (hI : ∀ ch, ¬ (ch = 'X' ∨ ch = 'Z') → ch ≠ 'Y' → ∀ q, f (ch, q) = .ok []) :
    sendAll ((s.zipIdx o).map f) =
      ⟨((s.take (len - o)).zipIdx o).flatMap fun cj => g cj.2 cj.1, firstFault (s.drop (len - o))⟩ := by
  induction s generalizing o with
  | nil => simp [sendAll, firstFault]
  | cons a s ih =>
    by_cases h : o < len
    · rw [List.zipIdx_cons, List.map_cons, hok a o h, show len - o = (len - (o + 1)) + 1 by omega, List.take_succ_cons,
        List.drop_succ_cons, List.zipIdx_cons, List.flatMap_cons]
      simp only [sendAll]
      rw [ih (o + 1) (by omega)]
    · rw [show len - o = 0 by omega, List.take_zero, List.drop_zero, List.zipIdx_nil, List.flatMap_nil,
        letters_beyond f (a :: s) o (by omega) hX hY hI]

theorem strPauli_take (N : ℕ) (s : List Char) : strPauli N (s.take N) = strPauli N s := by
  have : ∀ j : Fin N, (s.take N).getD j.val 'I' = s.getD j.val 'I' := by
    intro j
    rw [List.getD_eq_getElem?_getD, List.getD_eq_getElem?_getD, List.getElem?_take_of_lt j.2]
  unfold strPauli
  simp only [this]

/-- The part of an operator on the first `m` qubits. -/
def Spec.Pauli.first {n : ℕ} (m : ℕ) (h : m ≤ n) (p : Pauli n) : Pauli m :=
  ⟨fun j => p.x (j.castLE h), fun j => p.z (j.castLE h)⟩

theorem strPauli_first {n m : ℕ} (h : m ≤ n) (s : List Char) : (strPauli n s).first m h = strPauli m s := rfl

theorem letterGates_short (len : ℕ) (ctrl : Option ℕ) (s : List Char) :
    sendAll (s.zipIdx.map fun cj => letterGates len ctrl cj.2 cj.1) =
      ⟨strG ctrl 0 (s.take len), firstFault (s.drop len)⟩ := by
  have := letters_short (len := len) (fun cj => letterGates len ctrl cj.2 cj.1) (letterG ctrl) s 0 (by omega)
    (fun ch q hq => letterGates_ok hq ctrl ch)
    (fun ch hch q hq => by
      unfold letterGates onWire
      dsimp only
      rcases hch with rfl | rfl
      · rw [if_pos rfl, if_neg (by omega)]; rfl
      · rw [if_neg (by decide), if_neg (by decide), if_pos rfl, if_neg (by omega)]; rfl)
    (fun q hq => by
      unfold letterGates onQureg
      dsimp only
      rw [if_neg (by decide), if_pos rfl, if_neg (by omega)]; rfl)
    (fun ch h1 h2 q => by
      push Not at h1
      unfold letterGates
      simp only
      rw [if_neg h1.1, if_neg h2, if_neg h1.2])
  exact this

/-- **C88, `logical_circuit` on a register that is too short**.  With `m ≤ n` qubits the part of the logical operator on
these qubits is applied; then the first letter beyond the register raises `IndexError` (X, Z) or `ValueError` (Y).  The call
returns exactly when the operator has no letter beyond the register. -/
theorem C88_short_logical (s : StabInput) (n k : ℕ) (c : StabCode) (h : stabInit s n k none = .ok c)
    (hb : BinaryArr c.stab) (hind : Independent n c.stab) (p : Char) (hp : p = 'X' ∨ p = 'Y' ∨ p = 'Z') (i : ℕ) (hi : i < k)
    (hi10 : i < 10) (m : ℕ) (hm : m ≤ n) :
    let P := if p = 'X' then rowPauli n (c.logicalX.row i) else if p = 'Z' then rowPauli n (c.logicalZ.row i)
      else (rowPauli n (c.logicalX.row i)).add (rowPauli n (c.logicalZ.row i))
    let t := logicalSent c m [p, Char.ofNat (48 + i)]
    ∃ str : List Char, str.length = n ∧ IsPauliString str ∧ strPauli n str = P ∧ t.raised = firstFault (str.drop m) ∧
      ∀ ψ : Amp m, run t.gates ψ = pauliAct (P.first m hm) ψ := by
  obtain ⟨hn, hk, -, hsh, hX, hZ, -⟩ := accepted_facts h hb hind
  obtain ⟨b, h1, h2, h3, h4⟩ := logicalRow_ok hsh hX hZ hp hi
  obtain ⟨str, s1, s2, s3⟩ := rowStr h2 h3
  obtain ⟨str', s1', -, s5, -⟩ := C01_binary_roundtrip n b h2 h3
  rw [s1] at s1'
  cases s1'
  have key : logicalSent c m [p, Char.ofNat (48 + i)] = ⟨strG none 0 (str.take m), firstFault (str.drop m)⟩ := by
    unfold logicalSent pyAssert
    simp only
    rw [if_pos hp, ok_bind', intOfChar_digit hi10, ok_bind', if_pos (by omega), ok_bind', h1, ok_bind', s1]
    exact letterGates_short m none str
  intro P t
  refine ⟨str, s2, s5, s3.trans h4, by show (logicalSent c m [p, Char.ofNat (48 + i)]).raised = _; rw [key], ?_⟩
  intro ψ
  show run (logicalSent c m [p, Char.ofNat (48 + i)]).gates ψ = _
  rw [key]
  simp only
  rw [run_strG_zero none _ (by simp) (by simp), ctrlAct_none, strPauli_take, ← strPauli_first hm, s3, h4]

/-- **C88, `apply_stabilizer_circuit` on a register that is too short**: the same, with the phase of the Y's sent. -/
theorem C88_short_apply (n : ℕ) (b : List ℤ) (hl : b.length = 2 * n) (hb : IsBinary b) (m : ℕ) (hm : m ≤ n) :
    ∃ str : List Char, str.length = n ∧ IsPauliString str ∧ strPauli n str = rowPauli n b ∧
      (applySent m (.bin b)).raised = firstFault (str.drop m) ∧
      ∀ ψ : Amp m, run (applySent m (.bin b)).gates ψ =
        Complex.I ^ ((str.take m).count 'Y') • pauliAct ((rowPauli n b).first m hm) ψ := by
  obtain ⟨str, s1, s2, s3⟩ := rowStr hl hb
  obtain ⟨str', s1', -, s5, -⟩ := C01_binary_roundtrip n b hl hb
  rw [s1] at s1'
  cases s1'
  have key : applySent m (.bin b) = ⟨((str.take m).zipIdx 0).flatMap fun cj => applyG cj.2 cj.1, firstFault (str.drop m)⟩ := by
    unfold applySent
    simp only
    rw [s1]
    have := letters_short (len := m) (applyLetter m) applyG str 0 (by omega)
      (fun ch q hq => by
        unfold applyLetter applyG onWire onQureg
        simp only [hq, if_true]
        by_cases c1 : ch = 'X'
        · rw [if_pos c1, if_pos c1]; rfl
        · rw [if_neg c1, if_neg c1]
          by_cases c2 : ch = 'Z'
          · rw [if_pos c2, if_pos c2]; rfl
          · rw [if_neg c2, if_neg c2]
            by_cases c3 : ch = 'Y'
            · rw [if_pos c3, if_pos c3]; rfl
            · rw [if_neg c3, if_neg c3])
      (fun ch hch q hq => by
        unfold applyLetter onWire
        rcases hch with rfl | rfl
        · dsimp only; rw [if_pos rfl, if_neg (by omega)]; rfl
        · dsimp only; rw [if_neg (by decide), if_pos rfl, if_neg (by omega)]; rfl)
      (fun q hq => by
        unfold applyLetter onQureg
        dsimp only
        rw [if_neg (by decide), if_neg (by decide), if_pos rfl, if_neg (by omega)]; rfl)
      (fun ch h1 h2 q => by
        push Not at h1
        unfold applyLetter
        simp only
        rw [if_neg h1.1, if_neg h1.2, if_neg h2])
    exact this
  refine ⟨str, s2, s5, s3, by rw [key], ?_⟩
  intro ψ
  rw [key]
  simp only
  have hkey : ∀ (s : List Char) (o : ℕ) (ψ : Amp m), run ((s.zipIdx o).flatMap fun cj => applyG cj.2 cj.1) ψ =
      Complex.I ^ (s.count 'Y') • run (strG none o s) ψ := by
    intro s
    unfold strG
    induction s with
    | nil => intro o ψ; simp [run_nil]
    | cons a s ih =>
      intro o ψ
      rw [List.zipIdx_cons, List.flatMap_cons, List.flatMap_cons, run_append, run_append, ih, run_applyG, run_smul, smul_smul]
      congr 1
      by_cases ha : a = 'Y'
      · subst ha; rw [if_pos rfl, List.count_cons_self, pow_succ]
      · rw [if_neg ha, List.count_cons_of_ne ha, mul_one]
  rw [hkey, run_strG_zero none _ (by simp) (by simp), ctrlAct_none, strPauli_take, ← strPauli_first hm, s3]

/-! ### `single_syndrome_measurement` -/

/-- **C88, a letter that is not a Pauli letter**.  When such a letter comes after the letters `pre`,
`single_syndrome_measurement` raises `RuntimeError` with the register entangled with the ancilla:
`(φ ⊗ |0⟩ + P φ ⊗ |1⟩) / √2` with `P` the operator of `pre`.  Nothing is measured. -/
theorem C88_syndrome_letter (c : StabCode) (active len : ℕ)
    (hal : (active = c.n ∧ len = c.n) ∨ (active = c.n + 1 ∧ len = c.n + 1)) (pre post : List Char) (a : Char)
    (hpre : IsPauliString pre) (hlen : pre.length ≤ c.n) (ha : a ≠ 'X' ∧ a ≠ 'Y' ∧ a ≠ 'Z' ∧ a ≠ 'I') :
    let t := syndromeSent c active len (.str (pre ++ a :: post))
    t.raised = some .runtime ∧
    ∀ φ : Amp c.n, run t.gates (tensor φ (qubit 0)) = ((Real.sqrt 2 : ℝ) : ℂ)⁻¹ •
      (tensor φ (qubit 0) + tensor (pauliAct (strPauli c.n pre) φ) (qubit 1)) := by
  have key : syndromeSent c active len (.str (pre ++ a :: post)) =
      ⟨⟨none, .H, c.n⟩ :: strG (some c.n) 0 pre, some .runtime⟩ := by
    unfold syndromeSent
    rw [if_neg (by omega)]
    have hanc : (if active = c.n then .ok len else if len = 0 then .error .index else .ok (len - 1) : Except PyErr ℕ) = .ok c.n := by
      rcases hal with ⟨h1, h2⟩ | ⟨h1, h2⟩
      · rw [if_pos h1, h2]
      · rw [if_neg (by omega), if_neg (by omega), h2]; rfl
    rw [hanc]
    simp only [steps]
    rw [List.zipIdx_append, List.map_append, List.zipIdx_cons, List.map_cons]
    have h1 : pre.zipIdx.map (syndromeLetter len c.n) = (pre.zipIdx.map fun cj => letterG (some c.n) cj.2 cj.1).map .ok := by
      rw [List.map_map]
      apply List.map_congr_left
      rintro ⟨ch, j⟩ hj
      have hj' := mem_zipIdx_lt hj
      have hm := hpre ch (List.fst_mem_of_mem_zipIdx hj)
      simp only at hj'
      have hw := letterGates_ok (len := len) (q := j) (by omega) (some c.n) ch
      unfold syndromeLetter
      simp only [Function.comp]
      by_cases hc : ch = 'X' ∨ ch = 'Y' ∨ ch = 'Z'
      · rw [if_pos hc, hw]
      · rw [if_neg hc]
        have hI : ch = 'I' := by
          rcases hm with h | h | h | h
          all_goals first | exact h | exact absurd (by simp [h]) hc
        rw [if_pos hI, hI]; rfl
    have h2 : ∀ o, syndromeLetter len c.n (a, o) = .error .runtime := by
      intro o
      unfold syndromeLetter
      simp only
      rw [if_neg (by tauto), if_neg ha.2.2.2]
    rw [h1, h2]
    have h3 := sendAll_error ([⟨none, .H, c.n⟩] :: pre.zipIdx.map fun cj => letterG (some c.n) cj.2 cj.1) .runtime
      ((List.zipIdx post (0 + pre.length + 1)).map (syndromeLetter len c.n) ++ [.ok [⟨none, .H, c.n⟩]])
    rw [List.map_cons, List.flatten_cons, ← List.flatMap_def] at h3
    simp only [List.cons_append, List.append_assoc, List.nil_append] at h3 ⊢
    exact h3
  intro t
  refine ⟨by show (syndromeSent c active len (.str (pre ++ a :: post))).raised = _; rw [key], ?_⟩
  intro φ
  show run (syndromeSent c active len (.str (pre ++ a :: post))).gates _ = _
  rw [key]
  have hc : ∀ u : ZMod 2, run (strG (some c.n) 0 pre) (tensor φ (qubit u)) =
      tensor (if u = 1 then pauliAct (strPauli c.n pre) φ else φ) (qubit u) := by
    intro u
    rw [run_strG_zero _ _ (by omega)]
    · exact ctrlAct_tensor pre hlen φ (fun _ : Fin 1 => u) (i := 0) (by omega)
    · intro i hi
      simp only [Option.mem_def, Option.some.injEq] at hi
      subst hi
      rw [List.getD_eq_default _ _ (by omega)]; rfl
  simp only
  rw [run_cons, applyGate_H_last, run_smul, run_add, run_smul, hc, hc, if_neg (by decide), if_pos rfl, sgn_zero]
  norm_num

/-! ### `decoding_circuit` -/

/-- Steps that send nothing or raise `e`, one of which raises. -/
theorem sendAll_silent {l : List (Except PyErr (List Gate))} {e : PyErr} (h : ∀ x ∈ l, x = .ok [] ∨ x = .error e)
    (he : .error e ∈ l) (r : List (Except PyErr (List Gate))) : sendAll (l ++ r) = ⟨[], some e⟩ := by
  induction l with
  | nil => simp at he
  | cons x l ih =>
    rcases h x (by simp) with rfl | rfl
    · rw [List.cons_append]
      simp only [sendAll]
      rw [ih (fun y hy => h y (by simp [hy])) (by simpa using he)]; rfl
    · rfl

/-- **C88, `decoding_circuit` with too few ancillas**.  On a register of `n + m` qubits, `m < k`, without added ancillas, the
first `m` logical bits are copied to the ancillas; then `IndexError` is raised.  The code register still holds the codeword. -/
theorem C88_decoding_short (s : StabInput) (n k : ℕ) (c : StabCode) (h : stabInit s n k none = .ok c)
    (hb : BinaryArr c.stab) (hind : Independent n c.stab) (m : ℕ) (hm : m < k) :
    (decodingSent c (n + m) false).raised = some .index ∧
    ∀ δ : ℕ → ZMod 2, run (decodingSent c (n + m) false).gates (tensor (codeword n k c.rank c.normalForm δ) (ket 0)) =
      tensor (codeword n k c.rank c.normalForm δ) (ket fun i : Fin m => δ i) := by
  obtain ⟨hn, hk, -, hsh, hX, hZ, -⟩ := accepted_facts h hb hind
  have hz := lz_shape hsh
  rw [← hZ] at hz
  have bz : ∀ i < k, IsBinary (c.logicalZ.row i) := fun i hi => row_binary (by rw [hZ]; exact lz_binary hsh) (by omega)
  have lz : ∀ i, (c.logicalZ.row i).length = 2 * n := fun i => by rw [row_length]; omega
  have key : decodingSent c (n + m) false =
      ⟨(List.range m).flatMap (fun i => ((c.logicalZ.row i).drop n).zipIdx.flatMap (copyG (n + i))), some .index⟩ := by
    unfold decodingSent
    simp only [Bool.false_eq_true, if_false]
    rw [hn, hk]
    have hsplit : List.range k = List.range m ++ m :: List.range' (m + 1) (k - m - 1) := by
      rw [List.range_eq_range', List.range_eq_range', show k = m + ((k - m - 1) + 1) by omega, ← List.range'_append_1,
        List.range'_succ]
      simp
    rw [hsplit, List.flatMap_append, List.append_assoc]
    set f : ℕ → List (Except PyErr (List Gate)) := fun i => steps (rowAt c.logicalZ i) fun z => (z.drop n).zipIdx.map fun vj =>
        if vj.1 = 1 then do return [(⟨some (← onWire (n + m) vj.2), .X, ← onWire (n + m) (n + i)⟩ : Gate)] else .ok [] with hf
    have hjn : ∀ i, ∀ vj ∈ ((c.logicalZ.row i).drop n).zipIdx, vj.2 < n := by
      rintro i ⟨v, j⟩ hj
      have hj' := mem_zipIdx_lt hj
      simp [lz] at hj'
      simp only; omega
    have hrow : ∀ i < k, f i = ((c.logicalZ.row i).drop n).zipIdx.map fun vj =>
        if vj.1 = 1 then do return [(⟨some (← onWire (n + m) vj.2), .X, ← onWire (n + m) (n + i)⟩ : Gate)] else .ok [] := by
      intro i hi
      simp only [hf]
      rw [show rowAt c.logicalZ i = .ok (c.logicalZ.row i) by unfold rowAt; rw [if_pos (by omega)]]
      rfl
    have h1 : (List.range m).flatMap f =
        ((List.range m).flatMap fun i => ((c.logicalZ.row i).drop n).zipIdx.map (copyG (n + i))).map .ok := by
      rw [List.map_flatMap]
      apply List.flatMap_congr
      intro i hi
      have hi := List.mem_range.mp hi
      rw [hrow i (by omega), List.map_map]
      apply List.map_congr_left
      rintro ⟨v, j⟩ hj
      have hj2 := hjn i _ hj
      unfold copyG onWire
      simp only [Function.comp] at hj2 ⊢
      by_cases hv : v = 1
      · rw [if_pos hv, if_pos hv, if_pos (by omega), if_pos (by omega)]; rfl
      · rw [if_neg hv, if_neg hv]
    rw [h1, sendAll_ok_append, List.flatMap_cons, List.append_assoc, sendAll_silent (e := .index)]
    · simp only [List.append_nil]
      congr 1
      rw [List.flatMap_def, List.flatten_flatten, List.map_map, List.flatMap_def]
      rfl
    · intro x hx
      rw [hrow m hm, List.mem_map] at hx
      obtain ⟨⟨v, j⟩, hj, rfl⟩ := hx
      have hj2 := hjn m _ hj
      unfold onWire
      simp only at hj2 ⊢
      by_cases hv : v = 1
      · rw [if_pos hv, if_pos (by omega), if_neg (by omega)]
        exact Or.inr rfl
      · rw [if_neg hv]; exact Or.inl rfl
    · have hd := lz_dot hsh hm (fun j => if j = m then (1 : ZMod 2) else 0)
      rw [if_pos rfl] at hd
      obtain ⟨j, hj⟩ : ∃ j, (rowPauli n ((logicalZOf n k c.rank c.normalForm).row m)).z j ≠ 0 := by
        by_contra hno
        push Not at hno
        unfold dotp at hd
        rw [Finset.sum_eq_zero (fun j _ => by rw [hno j, zero_mul])] at hd
        exact zero_ne_one hd
      rw [← hZ] at hj
      have hv : ((c.logicalZ.row m).drop n)[j.val]? = some 1 := by
        have hlt : n + j.val < (c.logicalZ.row m).length := by rw [lz]; omega
        have hmem := bz m hm _ (List.getElem_mem hlt)
        rw [List.getElem?_drop, List.getElem?_eq_getElem hlt]
        rcases hmem with h0 | h0
        · exfalso
          apply hj
          show (((c.logicalZ.row m).getD (n + j.val) 0 : ℤ) : ZMod 2) = 0
          rw [List.getD_eq_getElem _ _ hlt, h0]; rfl
        · rw [h0]
      rw [hrow m hm, List.mem_map]
      refine ⟨(1, j.val), ?_, ?_⟩
      · rw [List.mem_zipIdx_iff_getElem?]; exact hv
      · unfold onWire
        simp only [if_true]
        rw [if_pos (by omega), if_neg (by omega)]; rfl
  rw [key]
  refine ⟨rfl, ?_⟩
  intro δ
  have h1 : ∀ t ≤ m, run ((List.range t).flatMap (fun i => ((c.logicalZ.row i).drop n).zipIdx.flatMap (copyG (n + i))))
      (tensor (codeword n k c.rank c.normalForm δ) (ket (0 : Fin m → ZMod 2))) =
        tensor (codeword n k c.rank c.normalForm δ) (ket fun i : Fin m => if i.val < t then δ i else 0) := by
    intro t
    induction t with
    | zero => intro _; simp only [List.range_zero, List.flatMap_nil, run_nil]; rfl
    | succ t ih =>
      intro ht
      rw [List.range_succ, List.flatMap_append, run_append, ih (by omega), List.flatMap_cons, List.flatMap_nil,
        List.append_nil, run_copy_tensor (lz t) (bz t (by omega)) (t := δ t) ?_ _ (by omega)]
      · congr 2
        funext j
        rcases lt_trichotomy j.val t with h | h | h
        · rw [if_pos h, if_neg (by omega), if_pos (by omega), add_zero]
        · rw [if_neg (by omega), if_pos h, if_pos (by omega), zero_add, h]
        · rw [if_neg (by omega), if_neg (by omega), if_neg (by omega), add_zero]
      · intro b hb
        rw [hZ]
        exact codeword_support hsh (by omega) δ b hb
  rw [h1 m le_rfl]
  congr 2
  funext i
  rw [if_pos i.2]

/-! ### Non-vacuity -/

/-- The hypotheses of the theorems about accepted codes: the code with generators XXXX and ZZZZ. -/
example : ∃ s c, stabInit s 4 2 none = .ok c ∧ BinaryArr c.stab ∧ Independent 4 c.stab ∧ (1 : ℕ) < 2 ∧ (3 : ℕ) ≤ 4 := by
  obtain ⟨c, h1, hb, hi, -⟩ := code422
  exact ⟨_, c, h1, hb, hi, by decide, by decide⟩

/-- A row on three qubits applied to two: XY is applied, Z raises; the letter Y beyond raises another exception. -/
example : applySent 2 (.bin [1, 1, 0, 0, 1, 1]) = ⟨[⟨none, .X, 0⟩, ⟨none, .Y, 1⟩], some .index⟩ ∧
    applySent 2 (.bin [1, 1, 1, 0, 1, 1]) = ⟨[⟨none, .X, 0⟩, ⟨none, .Y, 1⟩], some .value⟩ ∧
    applySent 2 (.bin [1, 1, 0, 0, 1, 0]) = ⟨[⟨none, .X, 0⟩, ⟨none, .Y, 1⟩], none⟩ := by decide

/-- The hypotheses of `C88_syndrome_letter`: the string XZQ. -/
example : IsPauliString ['X', 'Z'] ∧ ('Q' ≠ 'X' ∧ 'Q' ≠ 'Y' ∧ 'Q' ≠ 'Z' ∧ 'Q' ≠ 'I') ∧ "XZQ".toList = ['X', 'Z'] ++ 'Q' :: [] := by
  refine ⟨?_, by decide, rfl⟩
  unfold IsPauliString; decide

end PyQ
