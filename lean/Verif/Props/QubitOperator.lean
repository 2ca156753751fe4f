import Verif.Lemmas.ComputerOps
import Verif.Lemmas.PauliGates
import Verif.Props.Computer
import Verif.Props.Circuit

/-!
C18–C24 (and C13 for operators): Pauli canonicalisation, `QubitOperator` algebra, `apply_operator`.

`Circuit.opLR c` reads a circuit as a product of operators from left to right (as Pauli strings are written);
`Circuit.op c` is what executing the circuit does (first gate first).
-/
namespace QF

open QubitOperator

theorem pauliCircuit_of {c : Circuit} (hc : ∀ g ∈ c, ApiGate g ∧ (g.label = "X" ∨ g.label = "Y" ∨ g.label = "Z")) :
    PauliCircuit c := fun g hg => pauliGate_of_api (hc g hg).1 (hc g hg).2

/-! ### C18 -/

/-- C18: on every circuit of X/Y/Z gates, `canonicalize_pauli_circuit` returns a prefactor in {1,-1,i,-i} and a
circuit with one X/Y/Z per qubit, sorted by qubit, on qubits of the original, such that prefactor times the new
string is the original string (read left to right) — and it is the only such pair. -/
theorem C18_canonicalize (c : Circuit) (hc : ∀ g ∈ c, ApiGate g ∧ (g.label = "X" ∨ g.label = "Y" ∨ g.label = "Z")) :
    ∃ k c', c.canonicalizePauli = .ok (k, c') ∧ c'.Canonical ∧ (k = 1 ∨ k = -1 ∨ k = Complex.I ∨ k = -Complex.I) ∧
      (∀ g ∈ c', ∃ h ∈ c, h.target = g.target) ∧ k • c'.opLR = c.opLR ∧
      ∀ k2 c2, Circuit.Canonical c2 → k2 • Circuit.opLR c2 = c.opLR → k2 = k ∧ c2 = c' := by
  obtain ⟨k, c', e1, e2, e3, e4, e5⟩ := canonicalize_ok (pauliCircuit_of hc)
  refine ⟨k, c', e1, e2, e3, e4, e5, ?_⟩
  intro k2 c2 h1 h2
  have h3 : ((starRingEnd ℂ) k * k2) • c2.opLR = c'.opLR := by
    rw [mul_smul, h2, ← e5, ← mul_smul, e3.conj_mul, one_smul]
  have h4 := canon_inj h1 e2 h3
  subst h4
  refine ⟨?_, rfl⟩
  have h5 : (k2 - k) • c2.opLR = 0 := by rw [Op.sub_smul, h2, e5, sub_self]
  by_contra hne
  have h6 : ((k2 - k)⁻¹ * (k2 - k)) • c2.opLR = 0 := by rw [mul_smul, h5, smul_zero]
  rw [inv_mul_cancel₀ (sub_ne_zero.2 hne), one_smul] at h6
  exact opLR_ne_zero e2 h6

/-- C18: any other non-empty circuit raises; the empty circuit is left alone with prefactor 1. -/
theorem C18_non_pauli_raises (c : Circuit) (h : ∃ g ∈ c, ¬ (g.label = "X" ∨ g.label = "Y" ∨ g.label = "Z")) :
    c.canonicalizePauli = .error .runtimeError := by
  obtain ⟨g, hg, hl⟩ := h
  unfold Circuit.canonicalizePauli
  have h0 : c.length ≠ 0 := fun h => by rw [List.length_eq_zero_iff.1 h] at hg; simp at hg
  rw [if_neg h0, if_pos]
  intro h1
  exact hl (isPauli_iff.1 h1 g hg)

theorem C18_empty : Circuit.canonicalizePauli [] = .ok (1, []) := rfl

/-- a circuit with repeated qubits for which C18 has content: `X0 Y0 Z1 X1` -/
theorem C18_example : ∃ c : Circuit, c.length = 4 ∧ ∀ g ∈ c, ApiGate g ∧ (g.label = "X" ∨ g.label = "Y" ∨ g.label = "Z") := by
  refine ⟨[gX 0, gY 0, gZ 1, gX 1], rfl, ?_⟩
  intro g hg
  simp only [List.mem_cons, List.not_mem_nil, or_false] at hg
  rcases hg with rfl | rfl | rfl | rfl
  · exact ⟨.make (make_X 0 0), .inl rfl⟩
  · exact ⟨.make (make_Y 0 0), .inr (.inl rfl)⟩
  · exact ⟨.make (make_Z 1 0), .inr (.inr rfl)⟩
  · exact ⟨.make (make_X 1 0), .inl rfl⟩

/-! ### C19 -/

/-- C19: executing the circuit is the conjugate of the returned prefactor times executing the canonical circuit
(the prefactor is that of the opposite multiplication order). -/
theorem C19_execution (c c' : Circuit) (k : ℂ)
    (hc : ∀ g ∈ c, ApiGate g ∧ (g.label = "X" ∨ g.label = "Y" ∨ g.label = "Z"))
    (h : c.canonicalizePauli = .ok (k, c')) : c.op = (starRingEnd ℂ) k • c'.op := by
  obtain ⟨k1, c1, e1, e2, e3, e4, e5⟩ := canonicalize_ok (pauliCircuit_of hc)
  rw [e1] at h; cases h
  exact canonicalize_exec (pauliCircuit_of hc) e3 e2 e5

/-- C19: with at most one gate per qubit the prefactor is 1, the canonical circuit is a reordering of the
original, and executing either is the same. -/
theorem C19_distinct (c : Circuit) (hc : ∀ g ∈ c, ApiGate g ∧ (g.label = "X" ∨ g.label = "Y" ∨ g.label = "Z"))
    (hd : c.Pairwise (fun a b => a.target ≠ b.target)) :
    ∃ c', c.canonicalizePauli = .ok (1, c') ∧ c'.Perm c ∧ c'.op = c.op ∧ c'.opLR = c.opLR := by
  obtain ⟨k, c', e1, e2, e3, e4, e5⟩ := canonicalize_ok (pauliCircuit_of hc)
  have hp := pauliCircuit_of hc
  have key : k = 1 ∧ c'.Perm c := by
    unfold Circuit.canonicalizePauli at e1
    by_cases h0 : c.length = 0
    · rw [if_pos h0] at e1; cases e1; exact ⟨rfl, .refl _⟩
    rw [if_neg h0, if_neg (by rw [not_not, isPauli_iff]; exact fun g hg => (hp g hg).letter)] at e1
    have hperm : (c.insertionSort (fun a b => a.target ≤ b.target)).Perm c := List.perm_insertionSort _ c
    have hsort : (c.insertionSort (fun a b => a.target ≤ b.target)).Pairwise (fun a b => a.target ≤ b.target) := by
      have : Std.Total (fun (a b : Gate) => a.target ≤ b.target) := ⟨fun a b => Nat.le_total _ _⟩
      have : IsTrans Gate (fun (a b : Gate) => a.target ≤ b.target) := ⟨fun a b c => Nat.le_trans⟩
      exact List.pairwise_insertionSort _ c
    have hne : (c.insertionSort (fun a b => a.target ≤ b.target)).Pairwise (fun a b => a.target ≠ b.target) :=
      (hperm.pairwise_iff (fun h => Ne.symm h)).2 hd
    have hlt : (c.insertionSort (fun a b => a.target ≤ b.target)).Pairwise (fun a b => a.target < b.target) :=
      (hsort.and hne).imp (fun h => lt_of_le_of_ne h.1 h.2)
    rw [canonLoop_distinct _ (fun g hg => hp g ((List.mem_insertionSort _).1 hg)) hlt] at e1
    cases e1
    exact ⟨rfl, hperm⟩
  obtain ⟨rfl, hperm⟩ := key
  have := canonicalize_exec hp e3 e2 e5
  rw [map_one, one_smul] at this
  rw [one_smul] at e5
  exact ⟨c', e1, hperm, this.symm, e5⟩

/-- C19 (finding): with repeated qubits prefactor × canonical circuit is not what executing the circuit does:
for `[X0, Y0]` the two differ by a sign. -/
theorem C19_repeated_differs : ∃ c k c', (∀ g ∈ c, ApiGate g) ∧ Circuit.canonicalizePauli c = .ok (k, c') ∧
    c.op = (-1 : ℂ) • (k • c'.op) ∧ k • c'.op ≠ c.op := by
  have hc : ∀ g ∈ [gX 0, gY 0], ApiGate g ∧ (g.label = "X" ∨ g.label = "Y" ∨ g.label = "Z") := by
    intro g hg
    simp only [List.mem_cons, List.not_mem_nil, or_false] at hg
    rcases hg with rfl | rfl
    · exact ⟨.make (make_X 0 0), .inl rfl⟩
    · exact ⟨.make (make_Y 0 0), .inr (.inl rfl)⟩
  obtain ⟨k, c', e1, _, _, _, _, hu⟩ := C18_canonicalize [gX 0, gY 0] hc
  have hz : Circuit.Canonical [gZ 0] := canonical_iff.2 ⟨by simp [pauliGate_Z], by simp⟩
  obtain ⟨rfl, rfl⟩ := hu Complex.I [gZ 0] hz (by simp [Circuit.opLR, opX_opY])
  have h1 : Circuit.op [gX 0, gY 0] = (-1 : ℂ) • (Complex.I • Circuit.op [gZ 0]) := by
    simp only [Circuit.op_cons, Circuit.op_nil, one_mul, op_gX, op_gY, op_gZ, opY_opX, smul_smul, neg_one_mul]
  refine ⟨[gX 0, gY 0], Complex.I, [gZ 0], fun g hg => (hc g hg).1, e1, h1, ?_⟩
  intro h2
  rw [← h2] at h1
  have h4 := congrFun (LinearMap.congr_fun h1 (fun _ => 1)) 0
  simp [opZ_apply] at h4
  have := congrArg Complex.im h4
  norm_num at this

/-! ### C20 -/

theorem normal_isPauli {R : QubitOperator} (h : R.Normal) : R.IsPauli :=
  fun t ht => canonical_api (h.canonical t ht)

theorem numQubits_le {A : QubitOperator} {n : ℕ} : A.numQubits ≤ n ↔ ∀ t ∈ A, t.2.numQubits ≤ n := by
  unfold numQubits
  have : ∀ (A : QubitOperator) (m : ℕ), A.foldl (fun m t => max m t.2.numQubits) m ≤ n ↔ m ≤ n ∧ ∀ t ∈ A, t.2.numQubits ≤ n := by
    intro A
    induction A with
    | nil => intro m; simp
    | cons t A ih =>
      intro m
      rw [List.foldl_cons, ih]
      simp only [List.mem_cons, forall_eq_or_imp, max_le_iff, and_assoc]
  rw [this]; simp

/-- C13: `num_qubits` of an operator is the least `n` such that every qubit of every term is below `n`. -/
theorem C13_operator_num_qubits (A : QubitOperator) :
    (∀ t ∈ A, ∀ g ∈ t.2, g.target < A.numQubits ∧ g.control < A.numQubits) ∧
    ∀ n, (∀ t ∈ A, ∀ g ∈ t.2, g.target < n ∧ g.control < n) → A.numQubits ≤ n := by
  refine ⟨?_, ?_⟩
  · intro t ht g hg
    have h1 := (numQubits_le (A := A)).1 le_rfl t ht
    have h2 := (C13_circuit_num_qubits t.2).1 g hg
    omega
  · intro n h
    rw [numQubits_le]
    intro t ht
    exact (C13_circuit_num_qubits t.2).2 n (h t ht)

/-- C20: `simplify()` splits a Pauli operator `A` into what it returns, `R`, and what it drops, `D`: together
they are `A`; `R ++ D` has pairwise distinct canonical strings; everything kept has coefficient of modulus
above 1e-12 and everything dropped at most 1e-12; `R` is sorted, not longer than `A` and on its qubits. -/
theorem C20_simplify (A : QubitOperator) (hA : A.IsPauli) :
    ∃ R D, A.simplify = .ok R ∧ A.opLR = R.opLR + QubitOperator.opLR D ∧
      R.Normal ∧ (∀ t ∈ D, t.2.Canonical) ∧ ((R ++ D).map Prod.snd).Nodup ∧
      (∀ t ∈ R, 1e-12 < ‖t.1‖) ∧ (∀ t ∈ D, ‖t.1‖ ≤ 1e-12) ∧
      R.length + D.length ≤ A.length ∧ R.numQubits ≤ A.numQubits := by
  have hp := isPauli_circuits hA
  obtain ⟨F, e1, nF, oF, ⟨A', ea, ks⟩, e2⟩ := simplify_full hp
  have hperm : (F.filter (fun t => decide (‖t.1‖ > 1e-12)) ++ F.filter (fun t => !decide (‖t.1‖ > 1e-12))).Perm F :=
    List.filter_append_perm _ F
  have hnd : ((F.filter (fun t => decide (‖t.1‖ > 1e-12)) ++ F.filter (fun t => !decide (‖t.1‖ > 1e-12))).map Prod.snd).Nodup :=
    ((hperm.map Prod.snd).nodup_iff).2 (Normal.nodup nF)
  obtain ⟨B, eb, hB⟩ := canonicalOrder_ok hp
  rw [eb] at ea; cases ea
  refine ⟨_, F.filter (fun t => !decide (‖t.1‖ > 1e-12)), e2, ?_, Normal.filter nF _, ?_, hnd, ?_, ?_, ?_, ?_⟩
  · rw [← oF]; exact filter_split F _
  · intro t ht; exact nF.canonical t (List.mem_filter.1 ht).1
  · intro t ht
    have := (List.mem_filter.1 ht).2
    simpa using this
  · intro t ht
    have := (List.mem_filter.1 ht).2
    simpa using this
  · have h1 := hperm.length_eq
    rw [List.length_append] at h1
    rw [h1]
    have h2 : (F.map Prod.snd).length ≤ (A'.map Prod.snd).length := by
      refine List.Subperm.length_le (List.Nodup.subperm (Normal.nodup nF) ?_)
      intro s hs; exact (ks s).1 hs
    rw [List.length_map, List.length_map] at h2
    rw [hB.length_eq]; exact h2
  · rw [numQubits_le]
    intro t ht
    have h1 : t.2 ∈ A'.map Prod.snd := (ks t.2).1 (List.mem_map_of_mem (List.mem_filter.1 ht).1)
    obtain ⟨b, hb, e⟩ := List.mem_map.1 h1
    obtain ⟨i, hi, ei⟩ := List.getElem_of_mem hb
    have hiA : i < A.length := by rw [hB.length_eq]; exact hi
    obtain ⟨k, _, _, _, _, _, htg⟩ := List.Forall₂.get hB hiA hi
    simp only [List.get_eq_getElem, ei] at htg
    refine (C13_circuit_num_qubits t.2).2 _ ?_
    intro g hg
    have hcan := nF.canonical t (List.mem_filter.1 ht).1
    obtain ⟨h, hh, et⟩ := htg g (by rw [e]; exact hg)
    have := (C13_operator_num_qubits A).1 A[i] (List.getElem_mem hiA) h hh
    rw [(hcan.pauli g hg).control, ← et]
    exact ⟨this.1, this.1⟩

theorem negligible_of {R D : QubitOperator} (nd : ((R ++ D).map Prod.snd).Nodup) (c : ∀ t ∈ D, t.2.Canonical) (hs : ∀ t ∈ D, ‖t.1‖ ≤ 1e-12) :
    QubitOperator.Negligible D := by
  rw [List.map_append] at nd
  exact ⟨nd.of_append_right, fun t ht => ⟨c t ht, hs t ht⟩⟩

/-- C20: with `combine_like_terms = False` nothing is dropped: the operator is unchanged exactly. -/
theorem C20_simplify_keep (A : QubitOperator) (hA : A.IsPauli) :
    ∃ R, A.simplify false = .ok R ∧ A.opLR = R.opLR ∧ R.Normal := by
  obtain ⟨F, e1, nF, oF, _⟩ := simplify_full (isPauli_circuits hA)
  exact ⟨F, e1, oF.symm, nF⟩

/-- C20: the result of `simplify()` is a normal form: it depends on the linear operator only, not on how the
terms are written, ordered or split. -/
theorem C20_normal_form (A B : QubitOperator) (hA : A.IsPauli) (hB : B.IsPauli) (h : A.opLR = B.opLR) :
    A.simplify = B.simplify := simplify_determined (isPauli_circuits hA) (isPauli_circuits hB) h

theorem canonicalOrder_canonical {R : QubitOperator} (h : ∀ t ∈ R, t.2.Canonical) : R.canonicalOrder = .ok R := by
  induction R with
  | nil => rfl
  | cons t R ih =>
    unfold canonicalOrder at ih ⊢
    rw [List.mapM_cons, canonicalize_canonical (h t (by simp)), ih (fun t ht => h t (by simp [ht]))]
    simp

theorem simplify_normal {R : QubitOperator} (h : R.Normal) : R.simplify false = .ok R ∧
    R.simplify = .ok (R.filter fun t => decide (‖t.1‖ > 1e-12)) := by
  have hp : ∀ t ∈ R, PauliCircuit t.2 := fun t ht => (h.canonical t ht).pauli
  obtain ⟨F, e1, nF, oF, ⟨A', ea, ks⟩, e2⟩ := simplify_full hp
  rw [canonicalOrder_canonical h.canonical] at ea
  cases ea
  have hFR : F = R := by
    apply normal_ext nF h
    have hc := coefN_determined nF.canonical h.canonical oF
    intro t
    constructor
    · intro ht
      have hs := (ks t.2).1 (List.mem_map_of_mem ht)
      obtain ⟨u, hu, e⟩ := List.mem_map.1 hs
      have a := coefN_mem (Normal.nodup nF) ht
      have b := coefN_mem (Normal.nodup h) hu
      have : u = t := Prod.ext (by rw [← b, ← a, e, hc]) e
      rw [← this]; exact hu
    · intro ht
      have hs := (ks t.2).2 (List.mem_map_of_mem ht)
      obtain ⟨u, hu, e⟩ := List.mem_map.1 hs
      have a := coefN_mem (Normal.nodup h) ht
      have b := coefN_mem (Normal.nodup nF) hu
      have : u = t := Prod.ext (by rw [← b, ← a, e, hc]) e
      rw [← this]; exact hu
  rw [hFR] at e1 e2
  exact ⟨e1, e2⟩

/-- C20: `simplify` is idempotent (for either value of the flag). -/
theorem C20_idempotent (A R : QubitOperator) (b : Bool) (hA : A.IsPauli) (h : A.simplify b = .ok R) :
    R.simplify b = .ok R := by
  obtain ⟨F, e1, nF, _, _, e2⟩ := simplify_full (isPauli_circuits hA)
  cases b with
  | false => rw [e1] at h; cases h; exact (simplify_normal nF).1
  | true =>
    rw [e2] at h; cases h
    rw [(simplify_normal (Normal.filter nF _)).2, List.filter_filter]
    simp

/-- the two readings of an operator agree when no term repeats a qubit -/
theorem op_eq_opLR_of_distinct {A : QubitOperator} (hA : A.IsPauli)
    (hd : ∀ t ∈ A, t.2.Pairwise (fun a b => a.target ≠ b.target)) : A.op = A.opLR := by
  unfold QubitOperator.op QubitOperator.opLR
  congr 1
  refine List.map_congr_left ?_
  intro t ht
  obtain ⟨c', e1, _, e3, e4⟩ := C19_distinct t.2 (hA t ht) (hd t ht)
  obtain ⟨k, c2, f1, f2, _⟩ := canonicalize_ok (isPauli_circuits hA t ht)
  rw [e1] at f1; cases f1
  rw [← e3, ← e4, f2.op_eq]

/-- C20: for operators without repeated qubits in a term, what executing the operator does (`apply_operator`,
C24) is unchanged up to the dropped terms. -/
theorem C20_simplify_execution (A : QubitOperator) (hA : A.IsPauli)
    (hd : ∀ t ∈ A, t.2.Pairwise (fun a b => a.target ≠ b.target)) :
    ∃ R D, A.simplify = .ok R ∧ A.op = R.op + QubitOperator.op D ∧ QubitOperator.Negligible D := by
  obtain ⟨R, D, e1, e2, nR, cD, nd, _, hs, _⟩ := C20_simplify A hA
  refine ⟨R, D, e1, ?_, negligible_of nd cD hs⟩
  have hcan : ∀ {B : QubitOperator}, (∀ t ∈ B, t.2.Canonical) → B.op = B.opLR := by
    intro B hB
    apply op_eq_opLR_of_distinct (fun t ht => canonical_api (hB t ht))
    intro t ht
    exact (hB t ht).sorted.imp (fun h => Nat.ne_of_lt h)
  rw [op_eq_opLR_of_distinct hA hd, hcan nR.canonical, hcan cD, e2]

/-- C20: a non-Pauli term makes `simplify` raise. -/
theorem C20_non_pauli_raises (z : ℂ) (c : Circuit) (A : QubitOperator) (b : Bool)
    (h : ∃ g ∈ c, ¬ (g.label = "X" ∨ g.label = "Y" ∨ g.label = "Z")) :
    QubitOperator.simplify ((z, c) :: A) b = .error .runtimeError := by
  unfold simplify canonicalOrder
  rw [List.mapM_cons, C18_non_pauli_raises c h]
  rfl

/-! ### C21 -/

theorem opLR_products (A B : QubitOperator) : (A.products B).opLR = A.opLR * B.opLR := by
  have h1 : ∀ (l : ℂ × Circuit) (B : QubitOperator), QubitOperator.opLR (B.map fun r => (l.1 * r.1, Circuit.addCircuit (Circuit.addCircuit [] l.2) r.2)) =
      (l.1 • l.2.opLR) * B.opLR := by
    intro l B
    induction B with
    | nil => simp [QubitOperator.opLR]
    | cons r B ih =>
      have e : ∀ (t : ℂ × Circuit) (C : QubitOperator), QubitOperator.opLR (t :: C) = t.1 • t.2.opLR + QubitOperator.opLR C := by
        intro t C; simp [QubitOperator.opLR]
      rw [List.map_cons, e, ih, e, mul_add]
      congr 1
      have : Circuit.addCircuit (Circuit.addCircuit [] l.2) r.2 = l.2 ++ r.2 := by
        rw [addCircuit_eq, addCircuit_eq]; simp
      rw [this, Circuit.opLR_append, mul_smul, smul_mul_assoc, mul_smul_comm]
  unfold products
  induction A with
  | nil => simp [QubitOperator.opLR]
  | cons l A ih =>
    rw [List.flatMap_cons, opLR_qappend, ih, h1]
    have e : QubitOperator.opLR (l :: A) = l.1 • l.2.opLR + QubitOperator.opLR A := by simp [QubitOperator.opLR]
    rw [e, add_mul]

theorem products_isPauli {A B : QubitOperator} (hA : A.IsPauli) (hB : B.IsPauli) : (A.products B).IsPauli := by
  intro t ht g hg
  unfold products at ht
  obtain ⟨l, hl, h1⟩ := List.mem_flatMap.1 ht
  obtain ⟨r, hr, rfl⟩ := List.mem_map.1 h1
  rw [addCircuit_eq, addCircuit_eq] at hg
  rcases List.mem_append.1 hg with h | h
  · exact hA l hl g (by simpa using h)
  · exact hB r hr g h

theorem products_length (A B : QubitOperator) : (A.products B).length = A.length * B.length := by
  unfold products
  induction A with
  | nil => simp
  | cons l A ih => rw [List.flatMap_cons, List.length_append, ih, List.length_map, List.length_cons]; ring

/-- what `operator_product` does after the optional pre-simplification -/
theorem product_post (A B : QubitOperator) (post : Bool) (hA : A.IsPauli) (hB : B.IsPauli) :
    ∃ R D, (if post then (A.products B).simplify else (A.products B).canonicalOrder) = .ok R ∧
      A.opLR * B.opLR = R.opLR + QubitOperator.opLR D ∧ (∀ t ∈ R, t.2.Canonical) ∧
      QubitOperator.Negligible D ∧ (post = true → R.Normal) ∧
      (post = false → D = [] ∧ R.length = A.length * B.length) := by
  have hP := products_isPauli hA hB
  cases post with
  | true =>
    obtain ⟨R, D, e1, e2, nR, cD, nd, _, hs, _⟩ := C20_simplify _ hP
    refine ⟨R, D, by rw [if_pos rfl, e1], by rw [← opLR_products, e2], nR.canonical, negligible_of nd cD hs, fun _ => nR,
      fun h => by cases h⟩
  | false =>
    obtain ⟨R, e1, h1⟩ := canonicalOrder_ok (isPauli_circuits hP)
    obtain ⟨e2, e3⟩ := canonicalOrder_opLR (isPauli_circuits hP) e1
    refine ⟨R, [], by rw [if_neg (by simp), e1], ?_, e3, .nil, (fun h => by cases h), fun _ => ⟨rfl, ?_⟩⟩
    · rw [← opLR_products, e2]; simp [QubitOperator.opLR]
    · rw [← h1.length_eq, products_length]

/-- C21: for all flags, `L.operator_product(R)` turns `L` into the operator product `L * R` (Pauli strings read
left to right), up to terms `D1` dropped from `L` by the pre-simplification and `D2` dropped by the
post-simplification, all with coefficients of modulus at most 1e-12; nothing is dropped when the flags are off. -/
theorem C21_operator_product (A B : QubitOperator) (pre post : Bool) (hA : A.IsPauli) (hB : B.IsPauli) :
    ∃ R D1 D2, A.operatorProduct B pre post = .ok R ∧
      A.opLR * B.opLR = R.opLR + QubitOperator.opLR D2 + QubitOperator.opLR D1 * B.opLR ∧
      (∀ t ∈ R, t.2.Canonical) ∧ (post = true → R.Normal) ∧
      QubitOperator.Negligible D1 ∧ QubitOperator.Negligible D2 ∧ (pre = false → D1 = []) ∧ (post = false → D2 = []) := by
  cases pre with
  | true =>
    obtain ⟨A1, D1, e1, e2, nA, cD, nd, _, hs, _⟩ := C20_simplify A hA
    obtain ⟨R, D2, f1, f2, f3, f4, f5, f6⟩ := product_post A1 B post (normal_isPauli nA) hB
    refine ⟨R, D1, D2, ?_, ?_, f3, f5, negligible_of nd cD hs, f4, (fun h => by cases h), fun h => (f6 h).1⟩
    · unfold operatorProduct; rw [if_pos rfl, e1, except_ok_bind, f1]
    · rw [e2, add_mul, f2]
  | false =>
    obtain ⟨R, D2, f1, f2, f3, f4, f5, f6⟩ := product_post A B post hA hB
    refine ⟨R, [], D2, ?_, ?_, f3, f5, .nil, f4, fun _ => rfl, fun h => (f6 h).1⟩
    · unfold operatorProduct
      rw [if_neg (by simp)]
      simp only [pure, Except.pure, except_ok_bind]
      exact f1
    · rw [f2]; simp [QubitOperator.opLR]

/-- C21: `A.operator_product(A)` (argument and receiver the same object) is `A * A`, up to terms of modulus at
most 1e-12 dropped before (`D1`, from both factors) and after. -/
theorem C21_self_product (A : QubitOperator) (pre post : Bool) (hA : A.IsPauli) :
    ∃ R A1 D1 D2, A.operatorProductSelf pre post = .ok R ∧ A.opLR = QubitOperator.opLR A1 + QubitOperator.opLR D1 ∧
      QubitOperator.opLR A1 * QubitOperator.opLR A1 = R.opLR + QubitOperator.opLR D2 ∧
      QubitOperator.Negligible D1 ∧ QubitOperator.Negligible D2 ∧ (pre = false → A1 = A ∧ D1 = []) ∧ (post = false → D2 = []) := by
  cases pre with
  | true =>
    obtain ⟨A1, D1, e1, e2, nA, cD, nd, _, hs, _⟩ := C20_simplify A hA
    obtain ⟨R, D2, f1, f2, f3, f4, f5, f6⟩ := product_post A1 A1 post (normal_isPauli nA) (normal_isPauli nA)
    refine ⟨R, A1, D1, D2, ?_, e2, f2, negligible_of nd cD hs, f4, (fun h => by cases h), fun h => (f6 h).1⟩
    · unfold operatorProductSelf; rw [if_pos rfl, e1, except_ok_bind, f1]
  | false =>
    obtain ⟨R, D2, f1, f2, f3, f4, f5, f6⟩ := product_post A A post hA hA
    refine ⟨R, A, [], D2, ?_, by simp [QubitOperator.opLR], f2, .nil, f4, fun _ => ⟨rfl, rfl⟩, fun h => (f6 h).1⟩
    unfold operatorProductSelf
    rw [if_neg (by simp)]
    simp only [pure, Except.pure, except_ok_bind]
    exact f1

/-- the hypotheses of C20/C21 hold for `0.5 X0 Y0 + 0.25 Z1` -/
theorem C20_example : QubitOperator.IsPauli [(0.5, [gX 0, gY 0]), (0.25, [gZ 1])] := by
  intro t ht g hg
  simp only [List.mem_cons, List.not_mem_nil, or_false] at ht
  rcases ht with rfl | rfl
  · simp only [List.mem_cons, List.not_mem_nil, or_false] at hg
    rcases hg with rfl | rfl
    · exact ⟨.make (make_X 0 0), .inl rfl⟩
    · exact ⟨.make (make_Y 0 0), .inr (.inl rfl)⟩
  · simp only [List.mem_cons, List.not_mem_nil, or_false] at hg
    rcases hg with rfl
    exact ⟨.make (make_Z 1 0), .inr (.inr rfl)⟩

/-! ### C22 -/

/-- C22: `add_term` and `add_op` add operators (in either reading) and keep the existing terms in place. -/
theorem C22_add (A B : QubitOperator) (z : ℂ) (c : Circuit) :
    (A.addTerm z c).op = A.op + z • c.op ∧ (A.addTerm z c).opLR = A.opLR + z • c.opLR ∧
    (A.addOp B).op = A.op + B.op ∧ (A.addOp B).opLR = A.opLR + B.opLR ∧
    (A.addTerm z c).length = A.length + 1 ∧ (A.addTerm z c)[A.length]? = some (z, c) ∧
    (∀ i < A.length, (A.addTerm z c)[i]? = A[i]? ∧ (A.addOp B)[i]? = A[i]?) ∧ (A.addOp B).length = A.length + B.length := by
  have hop : ∀ A B : QubitOperator, QubitOperator.op (A ++ B) = QubitOperator.op A + QubitOperator.op B := by
    intro A B; simp [QubitOperator.op]
  have hB : A.addOp B = A ++ B := by
    unfold addOp
    induction B generalizing A with
    | nil => simp
    | cons b B ih => rw [List.foldl_cons, ih]; simp
  rw [hB]
  unfold addTerm
  refine ⟨by rw [hop]; simp [QubitOperator.op], by rw [opLR_qappend]; simp [QubitOperator.opLR], hop A B, opLR_qappend A B, by simp, by simp, ?_, by simp⟩
  intro i hi
  exact ⟨List.getElem?_append_left hi, List.getElem?_append_left hi⟩

/-- C22: `mult_coeffs` scales the operator and leaves the circuits alone. -/
theorem C22_mult_coeffs (A : QubitOperator) (z : ℂ) :
    (A.multCoeffs z).op = z • A.op ∧ (A.multCoeffs z).opLR = z • A.opLR ∧ (A.multCoeffs z).map Prod.snd = A.map Prod.snd := by
  refine ⟨?_, ?_, by simp [multCoeffs]⟩
  · unfold QubitOperator.op multCoeffs
    rw [List.map_map, List.smul_sum, List.map_map]
    congr 1
    refine List.map_congr_left (fun t _ => ?_)
    simp [mul_comm t.1 z, mul_smul]
  · unfold QubitOperator.opLR multCoeffs
    rw [List.map_map, List.smul_sum, List.map_map]
    congr 1
    refine List.map_congr_left (fun t _ => ?_)
    simp [mul_comm t.1 z, mul_smul]

/-- C22: `set_coeffs` succeeds iff the number of coefficients is the number of terms; then coefficient `i` is
the `i`-th given and the circuits are unchanged. -/
theorem C22_set_coeffs (A : QubitOperator) (zs : List ℂ) :
    (zs.length ≠ A.length → A.setCoeffs zs = .error .invalidArgument) ∧
    (zs.length = A.length → ∃ R, A.setCoeffs zs = .ok R ∧ R.map Prod.fst = zs ∧ R.map Prod.snd = A.map Prod.snd) := by
  refine ⟨fun h => by unfold setCoeffs; rw [if_pos h], fun h => ⟨_, by unfold setCoeffs; rw [if_neg (not_not.2 h)], ?_, ?_⟩⟩
  · rw [List.map_zipWith]
    induction zs generalizing A with
    | nil => simp
    | cons z zs ih =>
      cases A with
      | nil => simp at h
      | cons a A => simpa using ih A (by simpa using h)
  · rw [List.map_zipWith]
    induction zs generalizing A with
    | nil =>
      have : A = [] := List.length_eq_zero_iff.1 h.symm
      simp [this]
    | cons z zs ih =>
      cases A with
      | nil => simp at h
      | cons a A => simpa using ih A (by simpa using h)

/-! ### C23 -/

theorem forall2_filterMap_perm {A B : QubitOperator} (idx : List ℕ) (R : (ℂ × Circuit) → (ℂ × Circuit) → Prop)
    (h : List.Forall₂ R A B) : List.Forall₂ R (idx.filterMap fun i => A[i]?) (idx.filterMap fun i => B[i]?) := by
  induction idx with
  | nil => simp
  | cons i idx ih =>
    rw [List.filterMap_cons, List.filterMap_cons]
    by_cases hi : i < A.length
    · have hi' : i < B.length := by rw [← h.length_eq]; exact hi
      rw [List.getElem?_eq_getElem hi, List.getElem?_eq_getElem hi']
      exact .cons (List.Forall₂.get h hi hi') ih
    · have hi' : ¬ i < B.length := by rw [← h.length_eq]; exact hi
      rw [List.getElem?_eq_none (by omega), List.getElem?_eq_none (by omega)]
      exact ih

theorem filterMap_range_perm {A : QubitOperator} {idx : List ℕ} (h : idx.Perm (List.range A.length)) :
    (idx.filterMap fun i => A[i]?).Perm A := by
  refine (h.filterMap _).trans ?_
  have : (List.range A.length).filterMap (fun i => A[i]?) = A := by
    apply List.ext_getElem?
    intro i
    have : (List.range A.length).filterMap (fun i => A[i]?) = (List.range A.length).attach.map (fun i => A[i.1]'(List.mem_range.1 i.2)) := by
      conv_lhs => rw [← List.attach_map_subtype_val (List.range A.length)]
      rw [List.filterMap_map, ← List.filterMap_eq_map]
      apply List.filterMap_congr
      intro x _
      have := List.mem_range.1 x.2
      simp [this]
    rw [this, List.getElem?_map]
    by_cases hi : i < A.length
    · simp [hi]
    · simp [hi]
  rw [this]

theorem canonical_beq {c d : Circuit} (hc : PauliCircuit c) (hd : PauliCircuit d) : c.beq d = true ↔ c = d := by
  constructor
  · intro h
    induction c generalizing d with
    | nil => cases d with
      | nil => rfl
      | cons y d => simp [Circuit.beq] at h
    | cons x c ih =>
      cases d with
      | nil => simp [Circuit.beq] at h
      | cons y d =>
        simp only [Circuit.beq, Bool.and_eq_true] at h
        have e1 := (C17_gate_eq_iff x y).1 h.1
        have : x = y := Gate.key_inj (hc x (by simp)) (hd y (by simp)) (by unfold Gate.key; rw [e1.1, e1.2.1])
        rw [this, ih (fun g hg => hc g (by simp [hg])) (fun g hg => hd g (by simp [hg])) h.2]
  · rintro rfl
    have h := C17_refl_symm (gX 0) (gX 0) c c
    exact h.2.2.1

/-- the comparison loop of `check_op_equivalence` -/
theorem zip_all_iff {A B : QubitOperator} (hl : A.length = B.length) (hA : ∀ t ∈ A, PauliCircuit t.2) (hB : ∀ t ∈ B, PauliCircuit t.2) :
    ((List.zip A B).all (fun p => open Classical in decide (¬ (‖p.1.1 - p.2.1‖ > 1e-10) ∧ p.1.2.beq p.2.2 = true)) = true) ↔
      List.Forall₂ (fun t u => t.2 = u.2 ∧ ‖t.1 - u.1‖ ≤ 1e-10) A B := by
  induction A generalizing B with
  | nil => cases B with
    | nil => simp
    | cons b B => simp at hl
  | cons a A ih =>
    cases B with
    | nil => simp at hl
    | cons b B =>
      have hi := ih (B := B) (by simpa using hl) (fun t ht => hA t (by simp [ht])) (fun t ht => hB t (by simp [ht]))
      rw [List.zip_cons_cons, List.all_cons, Bool.and_eq_true, hi, List.forall₂_cons]
      simp only [decide_eq_true_eq, canonical_beq (hA a (by simp)) (hB b (by simp)), not_lt, gt_iff_lt]
      tauto

/-- C23: `check_op_equivalence(qo, reorder=True)` returns true exactly when the two operators, simplified, have
the same strings and, string by string, coefficients within 1e-10 — whatever order `std::sort` produces. -/
theorem C23_iff (o : SortOracle) (A B R S : QubitOperator) (hA : A.IsPauli) (hB : B.IsPauli)
    (hR : A.simplify = .ok R) (hS : B.simplify = .ok S) :
    ∃ b A', A.checkOpEquivalence o B true = .ok (b, A') ∧ A'.Perm R ∧
      (b = true ↔ List.Forall₂ (fun t u => t.2 = u.2 ∧ ‖t.1 - u.1‖ ≤ 1e-10) R S) := by
  obtain ⟨R', _, e1, _, nR, _⟩ := C20_simplify A hA
  rw [hR] at e1; cases e1
  obtain ⟨S', _, e1, _, nS, _⟩ := C20_simplify B hB
  rw [hS] at e1; cases e1
  have hPR : ∀ t ∈ R, PauliCircuit t.2 := fun t ht => (nR.canonical t ht).pauli
  have hPS : ∀ t ∈ S, PauliCircuit t.2 := fun t ht => (nS.canonical t ht).pauli
  obtain ⟨RR, hRR⟩ : ∃ x, x = (o.perm (R.map Prod.snd)).filterMap fun i => R[i]? := ⟨_, rfl⟩
  obtain ⟨SS, hSS⟩ : ∃ x, x = (o.perm (S.map Prod.snd)).filterMap fun i => S[i]? := ⟨_, rfl⟩
  have pR : RR.Perm R := by
    rw [hRR]; apply filterMap_range_perm
    have := o.isPerm (R.map Prod.snd); rwa [List.length_map] at this
  have pS : SS.Perm S := by
    rw [hSS]; apply filterMap_range_perm
    have := o.isPerm (S.map Prod.snd); rwa [List.length_map] at this
  have run : A.checkOpEquivalence o B true =
      if RR.length ≠ SS.length then .ok (false, RR)
      else .ok ((List.zip RR SS).all (fun p => open Classical in decide (¬ (‖p.1.1 - p.2.1‖ > 1e-10) ∧ p.1.2.beq p.2.2 = true)), RR) := by
    unfold checkOpEquivalence
    simp only [if_true, orderTerms, hR, hS, except_ok_bind, pure, Except.pure, ← hRR, ← hSS]
  have keys : ∀ {X Y : QubitOperator}, List.Forall₂ (fun t u => t.2 = u.2 ∧ ‖t.1 - u.1‖ ≤ 1e-10) X Y →
      X.map Prod.snd = Y.map Prod.snd := by
    intro X Y h
    induction h with
    | nil => rfl
    | cons h1 h2 ih => simp only [List.map_cons, h1.1, ih]
  have main : List.Forall₂ (fun t u => t.2 = u.2 ∧ ‖t.1 - u.1‖ ≤ 1e-10) RR SS ↔
      List.Forall₂ (fun t u => t.2 = u.2 ∧ ‖t.1 - u.1‖ ≤ 1e-10) R S := by
    constructor
    · intro h
      have hperm : (R.map Prod.snd).Perm (S.map Prod.snd) := by
        have h1 := pR.map Prod.snd
        have h2 := pS.map Prod.snd
        rw [keys h] at h1
        exact h1.symm.trans h2
      have sortR : (R.map Prod.snd).Pairwise (fun a b => Circuit.keys a < Circuit.keys b) := by
        rw [List.pairwise_map]; exact Normal.keys nR
      have sortS : (S.map Prod.snd).Pairwise (fun a b => Circuit.keys a < Circuit.keys b) := by
        rw [List.pairwise_map]; exact Normal.keys nS
      have hk : R.map Prod.snd = S.map Prod.snd :=
        hperm.eq_of_pairwise (fun a b _ _ h1 h2 => absurd h1 (lt_asymm h2)) sortR sortS
      have hlen : R.length = S.length := by have := congrArg List.length hk; simpa using this
      rw [List.forall₂_iff_get]
      refine ⟨hlen, ?_⟩
      intro i hi hi'
      have hki : R[i].2 = S[i].2 := by
        have := congrArg (fun l => l[i]?) hk
        simpa [hi, hi'] using this
      simp only [List.get_eq_getElem]
      refine ⟨hki, ?_⟩
      -- R[i] occurs in RR, paired with an entry of SS with the same string, which must be S[i]
      have hm : R[i] ∈ RR := pR.mem_iff.2 (List.getElem_mem hi)
      obtain ⟨j, hj, ej⟩ := List.getElem_of_mem hm
      have hj' : j < SS.length := by rw [← h.length_eq]; exact hj
      have hp := List.Forall₂.get h hj hj'
      simp only [List.get_eq_getElem, ej] at hp
      have hu : SS[j] ∈ S := pS.mem_iff.1 (List.getElem_mem hj')
      have e1 := coefN_mem (Normal.nodup nS) hu
      have e2 := coefN_mem (Normal.nodup nS) (List.getElem_mem hi')
      rw [← hp.1, hki, e2] at e1
      rw [e1]; exact hp.2
    · intro h
      rw [hRR, hSS, keys h]
      exact forall2_filterMap_perm _ _ h
  rw [run]
  by_cases hl : RR.length = SS.length
  · rw [if_neg (not_not.2 hl)]
    refine ⟨_, RR, rfl, pR, ?_⟩
    rw [zip_all_iff hl (fun t ht => hPR t (pR.mem_iff.1 ht)) (fun t ht => hPS t (pS.mem_iff.1 ht)), main]
  · rw [if_pos hl]
    refine ⟨false, RR, rfl, pR, ?_⟩
    simp only [Bool.false_eq_true, false_iff]
    intro h
    exact hl (main.2 h).length_eq

/-- C23: if the two operators are equal (as linear operators; terms may be ordered, split and written
differently) the answer is true. -/
theorem C23_complete (o : SortOracle) (A B : QubitOperator) (hA : A.IsPauli) (hB : B.IsPauli) (h : A.opLR = B.opLR) :
    ∃ A', A.checkOpEquivalence o B true = .ok (true, A') := by
  obtain ⟨R, _, e1, _⟩ := C20_simplify A hA
  have e2 := C20_normal_form A B hA hB h
  obtain ⟨b, A', e3, _, e4⟩ := C23_iff o A B R R hA hB e1 (by rw [← e2, e1])
  refine ⟨A', ?_⟩
  rw [e3, e4.2 ?_]
  rw [List.forall₂_same]
  intro t _
  exact ⟨rfl, by simp; norm_num⟩

/-- C23: if the answer is true the operators differ, string by string, by at most 1e-10 plus what
simplification drops: there is a difference operator on distinct canonical strings with coefficients at most
1e-10, and dropped parts with coefficients at most 1e-12. -/
theorem C23_sound (o : SortOracle) (A B A' : QubitOperator) (hA : A.IsPauli) (hB : B.IsPauli)
    (h : A.checkOpEquivalence o B true = .ok (true, A')) :
    ∃ E DA DB : QubitOperator, A.opLR - B.opLR = E.opLR + DA.opLR - DB.opLR ∧
      (E.map Prod.snd).Nodup ∧ (∀ t ∈ E, t.2.Canonical ∧ ‖t.1‖ ≤ 1e-10) ∧
      (DA.map Prod.snd).Nodup ∧ (∀ t ∈ DA, t.2.Canonical ∧ ‖t.1‖ ≤ 1e-12) ∧
      (DB.map Prod.snd).Nodup ∧ (∀ t ∈ DB, t.2.Canonical ∧ ‖t.1‖ ≤ 1e-12) := by
  obtain ⟨R, DA, a1, a2, nR, a4, a5, _, a6, _⟩ := C20_simplify A hA
  obtain ⟨S, DB, b1, b2, nS, b4, b5, _, b6, _⟩ := C20_simplify B hB
  obtain ⟨b, A2, e3, _, e4⟩ := C23_iff o A B R S hA hB a1 b1
  rw [h] at e3
  cases e3
  have hf := e4.1 rfl
  rw [List.map_append] at a5 b5
  refine ⟨List.zipWith (fun t u => (t.1 - u.1, t.2)) R S, DA, DB, ?_, ?_, ?_, (List.nodup_append.1 a5).2.1, fun t ht => ⟨a4 t ht, a6 t ht⟩,
    (List.nodup_append.1 b5).2.1, fun t ht => ⟨b4 t ht, b6 t ht⟩⟩
  · have zw : ∀ {R S : QubitOperator}, List.Forall₂ (fun t u => t.2 = u.2 ∧ ‖t.1 - u.1‖ ≤ 1e-10) R S →
        QubitOperator.opLR (List.zipWith (fun t u => (t.1 - u.1, t.2)) R S) = R.opLR - S.opLR := by
      intro R S hf
      induction hf with
      | nil => simp [QubitOperator.opLR]
      | @cons t u R S h1 h2 ih =>
        have e : ∀ (t : ℂ × Circuit) (C : QubitOperator), QubitOperator.opLR (t :: C) = t.1 • t.2.opLR + QubitOperator.opLR C := by
          intro t C; simp [QubitOperator.opLR]
        rw [List.zipWith_cons_cons, e, e, e, ih]
        show (t.1 - u.1) • t.2.opLR + _ = _
        rw [Op.sub_smul, ← h1.1]
        abel
    rw [zw hf, a2, b2]; abel
  · have zw : ∀ {R S : QubitOperator}, List.Forall₂ (fun t u => t.2 = u.2 ∧ ‖t.1 - u.1‖ ≤ 1e-10) R S →
        (List.zipWith (fun t u => (t.1 - u.1, t.2)) R S).map Prod.snd = R.map Prod.snd := by
      intro R S hf
      induction hf with
      | nil => rfl
      | cons h1 h2 ih => simp [ih]
    rw [zw hf]; exact Normal.nodup nR
  · intro t ht
    obtain ⟨i, hi, e⟩ := List.getElem_of_mem ht
    rw [List.length_zipWith] at hi
    have hi1 : i < R.length := by omega
    have hi2 : i < S.length := by omega
    rw [List.getElem_zipWith] at e
    have := List.Forall₂.get hf hi1 hi2
    simp only [List.get_eq_getElem] at this
    rw [← e]
    exact ⟨nR.canonical R[i] (List.getElem_mem hi1), this.2⟩

/-- C23 (finding): near the 1e-12 cut-off the answer can be false for operators that differ by far less than
1e-10: `1e-12 · X0` against `1.5e-12 · X0`. -/
theorem C23_cutoff (o : SortOracle) : ∃ A', QubitOperator.checkOpEquivalence o [(1e-12, [gX 0])] [(1.5e-12, [gX 0])] true = .ok (false, A') := by
  have hx : Circuit.Canonical [gX 0] := canonical_iff.2 ⟨by simp [pauliGate_X], by simp⟩
  have n1 : ∀ z : ℂ, QubitOperator.Normal [(z, [gX 0])] := fun z => ⟨by simp [hx], by simp⟩
  have n1' := (simplify_normal (n1 1e-12)).2
  have n2' := (simplify_normal (n1 1.5e-12)).2
  obtain ⟨b, A', e, _, h⟩ := C23_iff o _ _ _ _ (normal_isPauli (n1 1e-12)) (normal_isPauli (n1 1.5e-12)) n1' n2'
  refine ⟨A', ?_⟩
  rw [e]
  have : ¬ (b = true) := by
    rw [h]
    intro hf
    have := hf.length_eq
    norm_num at this
  cases b
  · rfl
  · exact absurd rfl this

/-- C23 (finding): the comparator given to `std::sort` is not a strict weak ordering ("neither is less" is not
transitive), as `std::sort` requires: `X0 X1` ~ `X0` ~ `X0 X2` but `X0 X1 < X0 X2`. -/
theorem C23_comparator_not_weak_order : ∃ a b c : Circuit, a.Canonical ∧ b.Canonical ∧ c.Canonical ∧
    orderCmp a b = false ∧ orderCmp b a = false ∧ orderCmp b c = false ∧ orderCmp c b = false ∧ orderCmp a c = true := by
  refine ⟨[gX 0, gX 1], [gX 0], [gX 0, gX 2], canonical_iff.2 ⟨by simp [pauliGate_X], by simp [gX]⟩,
    canonical_iff.2 ⟨by simp [pauliGate_X], by simp⟩, canonical_iff.2 ⟨by simp [pauliGate_X], by simp [gX]⟩, ?_, ?_, ?_, ?_, ?_⟩ <;>
  simp [orderCmp, gX, List.range, List.range.loop, List.find?]

/-- C23: with `reorder=False` the answer is true iff the term lists have equal length and agree position by
position: equal circuits, coefficients within 1e-10. -/
theorem C23_no_reorder (o : SortOracle) (A B : QubitOperator) (hA : A.IsPauli) (hB : B.IsPauli) :
    ∃ b, A.checkOpEquivalence o B false = .ok (b, A) ∧
      (b = true ↔ List.Forall₂ (fun t u => t.2 = u.2 ∧ ‖t.1 - u.1‖ ≤ 1e-10) A B) := by
  unfold checkOpEquivalence
  simp only [pure, Except.pure, except_ok_bind, Bool.false_eq_true, if_false]
  by_cases hl : A.length = B.length
  · rw [if_neg (not_not.2 hl)]
    exact ⟨_, rfl, zip_all_iff hl (isPauli_circuits hA) (isPauli_circuits hB)⟩
  · rw [if_pos hl]
    refine ⟨false, rfl, ?_⟩
    simp only [Bool.false_eq_true, false_iff]
    intro h
    exact hl h.length_eq

/-! ### C24 -/

/-- C24: `apply_operator` maps the state to `Σ_k z_k · (circuit k applied to the state)`, and leaves the computer
well-formed (right sizes, clean scratch storage). -/
theorem C24_apply_operator (q : Computer) (A : QubitOperator) (hq : q.WF)
    (hA : ∀ t ∈ A, t.2.Fits q.nqubit ∧ ∀ g ∈ t.2, ExactGate g) :
    ∃ q', q.applyOperator A = .ok q' ∧ q'.WF ∧ q'.nqubit = q.nqubit ∧ q'.psi = A.op q.psi := by
  obtain ⟨q1, r, e1, e2, e3, e4, e5⟩ := applyOperator_loop (old := q.coeff) A q (List.replicate q.nbasis 0) hq rfl
    (by simp [hq.nbasis]) hA
  refine ⟨{ q1 with coeff := r }, ?_, ⟨e2.nbasis, ?_, e2.new⟩, e3, ?_⟩
  · unfold Computer.applyOperator
    simp only [e1]; rfl
  · show r.length = 2 ^ q1.nqubit
    rw [e4, e3]
  · show vec r = _
    rw [e5, vec_replicate_zero, zero_add]; rfl

theorem PauliGate.exact {g : Gate} (h : PauliGate g) : ExactGate g := (C08_hypotheses_constant_gates h.make h.param).1

/-- C24: on Pauli operators the exactness hypothesis always holds. -/
theorem C24_apply_pauli_operator (q : Computer) (A : QubitOperator) (hq : q.WF) (hA : A.IsPauli) (hn : A.numQubits ≤ q.nqubit) :
    ∃ q', q.applyOperator A = .ok q' ∧ q'.WF ∧ q'.nqubit = q.nqubit ∧ q'.psi = A.op q.psi := by
  refine C24_apply_operator q A hq (fun t ht => ⟨?_, ?_⟩)
  · intro g hg
    have := (C13_operator_num_qubits A).1 t ht g hg
    omega
  · intro g hg
    exact (isPauli_circuits hA t ht g hg).exact

/-- C24: applying a sum of operators is adding the results; applying a scaled operator is scaling the result. -/
theorem C24_linear (q : Computer) (A B : QubitOperator) (z : ℂ) (hq : q.WF)
    (hA : ∀ t ∈ A, t.2.Fits q.nqubit ∧ ∀ g ∈ t.2, ExactGate g) (hB : ∀ t ∈ B, t.2.Fits q.nqubit ∧ ∀ g ∈ t.2, ExactGate g) :
    ∃ qa qb qs qm, q.applyOperator A = .ok qa ∧ q.applyOperator B = .ok qb ∧
      q.applyOperator (A.addOp B) = .ok qs ∧ q.applyOperator (A.multCoeffs z) = .ok qm ∧
      qs.psi = qa.psi + qb.psi ∧ qm.psi = z • qa.psi := by
  obtain ⟨qa, a1, _, _, a4⟩ := C24_apply_operator q A hq hA
  obtain ⟨qb, b1, _, _, b4⟩ := C24_apply_operator q B hq hB
  have hadd : A.addOp B = A ++ B := by
    unfold addOp
    clear hA hB a4 b4 a1 b1
    induction B generalizing A with
    | nil => simp
    | cons b B ih => rw [List.foldl_cons, ih]; simp
  obtain ⟨qs, s1, _, _, s4⟩ := C24_apply_operator q (A.addOp B) hq (by
    rw [hadd]; intro t ht
    rcases List.mem_append.1 ht with h | h
    · exact hA t h
    · exact hB t h)
  obtain ⟨qm, m1, _, _, m4⟩ := C24_apply_operator q (A.multCoeffs z) hq (by
    intro t ht
    obtain ⟨u, hu, rfl⟩ := List.mem_map.1 ht
    exact hA u hu)
  refine ⟨qa, qb, qs, qm, a1, b1, s1, m1, ?_, ?_⟩
  · rw [s4, a4, b4, (C22_add A B 0 []).2.2.1]; rfl
  · rw [m4, a4, (C22_mult_coeffs A z).1]; rfl

/-- C24: the empty operator yields the zero vector. -/
theorem C24_empty (q : Computer) (hq : q.WF) : ∃ q', q.applyOperator [] = .ok q' ∧ q'.psi = 0 := by
  obtain ⟨q', e, _, _, h⟩ := C24_apply_operator q [] hq (by simp)
  exact ⟨q', e, by rw [h]; simp [QubitOperator.op]⟩

end QF
