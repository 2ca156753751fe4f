import Verif.Model.System
import Verif.Props.IO
import Verif.Props.UccGradient3

/-!
C90: `create_TFIM(n, h, J)` builds the open-chain transverse-field Ising model.
-/
namespace QF
open Text

/-- the transverse-field Ising Hamiltonian on an open chain of `n` sites: `-h ∑ Z_i - J ∑ X_i X_{i+1}` -/
noncomputable def tfimOp (n : ℕ) (h J : ℝ) : Op :=
  -((h : ℂ) • ∑ i ∈ Finset.range n, opZ i) - (J : ℂ) • ∑ i ∈ Finset.range (n - 1), opX i * opX (i + 1)

/-- the operator flipping the sign of every basis state with an odd number of ones among the first `n` bits -/
noncomputable def parityOp (n : ℕ) : Op where
  toFun ψ := fun I => (-1) ^ nBelow I n * ψ I
  map_add' φ ψ := by funext I; simp [mul_add]
  map_smul' z ψ := by funext I; simp; ring

/-- the terms the adapter adds -/
noncomputable def tfimTerms (n : ℕ) (h J : ℝ) : QubitOperator :=
  (List.range n).map (fun i => (((-h : ℝ) : ℂ), [gZ i])) ++ (List.range (n - 1)).map fun i => (((-J : ℝ) : ℂ), [gX i, gX (i + 1)])

theorem pyGate2_Z (t : ℕ) : pyGate2 "Z" t t = .ok (gZ t) := by
  unfold pyGate2
  rw [if_neg (by decide), if_pos ⟨rfl, by decide⟩, make_Z]

theorem pyGate2_X (t : ℕ) : pyGate2 "X" t t = .ok (gX t) := by
  unfold pyGate2
  rw [if_neg (by decide), if_pos ⟨rfl, by decide⟩, make_X]

theorem build_Z (N : PyNum) (i : ℕ) : buildCircuit N (['Z', '_'] ++ pyStr i) = .ok [gZ i] := by
  have hL : Layout ([GateText.one "Z" i].map GateText.word) (['Z', '_'] ++ pyStr i) := by
    have := Layout.word (lead := []) (w := ['Z', '_'] ++ pyStr i) (s := []) (ws := []) (by simp) (by simp) (.blank (by simp)) (.inl rfl)
    simpa [GateText.word, num, pyStr] using this
  rw [C89_build_circuit_partial N _ _ (by intro g hg; rw [List.mem_singleton.1 hg]; simp only [GateText.Plain]; decide) hL]
  simp [GateText.build, pyGate2_Z, bind, Except.bind, pure, Except.pure]

theorem build_XX (N : PyNum) (i : ℕ) : buildCircuit N (['X', '_'] ++ pyStr i ++ [' ', 'X', '_'] ++ pyStr (i + 1)) = .ok [gX i, gX (i + 1)] := by
  have hL : Layout ([GateText.one "X" i, GateText.one "X" (i + 1)].map GateText.word) (['X', '_'] ++ pyStr i ++ [' ', 'X', '_'] ++ pyStr (i + 1)) := by
    have h1 := Layout.word (lead := [' ']) (w := ['X', '_'] ++ pyStr (i + 1)) (s := []) (ws := []) (by simp [Blank]) (by simp) (.blank (by simp)) (.inl rfl)
    have := Layout.word (lead := []) (w := ['X', '_'] ++ pyStr i) (by simp) (by simp) h1 (.inr ⟨' ', _, rfl, .inl rfl⟩)
    simpa [GateText.word, num, pyStr] using this
  rw [C89_build_circuit_partial N _ _ (by
    intro g hg
    simp only [List.mem_cons, List.not_mem_nil, or_false] at hg
    rcases hg with rfl | rfl <;> simp only [GateText.Plain] <;> decide) hL]
  simp [GateText.build, pyGate2_X, bind, Except.bind, pure, Except.pure]

theorem createTFIM_eq (N : PyNum) (n : ℕ) (h J : ℝ) : createTFIM N n h J = .ok (tfimTerms n h J, List.replicate n 0) := by
  have key : ∀ (l : List (ℂ × List Char)) (cs : List Circuit), List.Forall₂ (fun t c => buildCircuit N t.2 = .ok c) l cs →
      ∀ A : QubitOperator, l.foldlM (fun (A : QubitOperator) t => do return A.addTerm t.1 (← buildCircuit N t.2)) A =
        .ok (A ++ List.zipWith (fun t c => (t.1, c)) l cs) := by
    intro l cs hf
    induction hf with
    | nil => intro A; simp [pure, Except.pure]
    | cons h1 _ ih =>
      intro A
      rw [List.foldlM_cons, h1, except_ok_bind]
      refine (ih (A.addTerm _ _)).trans ?_
      simp [QubitOperator.addTerm]
  unfold createTFIM
  have hf : List.Forall₂ (fun t c => buildCircuit N t.2 = .ok c)
      ((List.range n).map (fun i => (((-h : ℝ) : ℂ), ['Z', '_'] ++ pyStr i)) ++ (List.range (n - 1)).map fun i => (((-J : ℝ) : ℂ), ['X', '_'] ++ pyStr i ++ [' ', 'X', '_'] ++ pyStr (i + 1)))
      ((List.range n).map (fun i => [gZ i]) ++ (List.range (n - 1)).map fun i => [gX i, gX (i + 1)]) := by
    refine List.rel_append ?_ ?_
    · rw [List.forall₂_map_left_iff, List.forall₂_map_right_iff, List.forall₂_same]
      exact fun i _ => build_Z N i
    · rw [List.forall₂_map_left_iff, List.forall₂_map_right_iff, List.forall₂_same]
      exact fun i _ => build_XX N i
  dsimp only
  rw [key _ _ hf, except_ok_bind]
  simp only [pure, Except.pure]
  congr 2
  rw [List.zipWith_append (by simp), List.zipWith_map, List.zipWith_map]
  simp [tfimTerms, List.zipWith_self]

theorem tfimTerms_op (n : ℕ) (h J : ℝ) : (tfimTerms n h J).op = tfimOp n h J := by
  have h1 : ∀ (m : ℕ) (f : ℕ → Op), ((List.range m).map f).sum = ∑ i ∈ Finset.range m, f i := fun m f => by
    rw [Finset.sum_eq_multiset_sum, Finset.range_val, Multiset.range, Multiset.map_coe, Multiset.sum_coe]
  unfold tfimTerms tfimOp QubitOperator.op
  rw [List.map_append, List.sum_append, List.map_map, List.map_map, h1, h1, Finset.smul_sum, Finset.smul_sum, sub_eq_add_neg, ← Finset.sum_neg_distrib, ← Finset.sum_neg_distrib]
  congr 1
  · refine Finset.sum_congr rfl fun i _ => ?_
    simp only [Function.comp, Circuit.op, op_gZ, one_mul]
    push_cast
    module
  · refine Finset.sum_congr rfl fun i _ => ?_
    simp only [Function.comp, Circuit.op, op_gX, one_mul]
    have : opX (i + 1) * opX i = opX i * opX (i + 1) := by
      apply Op.ext'; intro ψ I
      simp only [Module.End.mul_apply, opX_apply]
      congr 1
      apply Nat.eq_of_testBit_eq
      intro k
      simp only [testBit_flipBit]
      split_ifs <;> first | rfl | omega
    rw [this]
    push_cast
    module

theorem tfim_pauli (n : ℕ) (h J : ℝ) : ∀ t ∈ tfimTerms n h J, t.1.im = 0 ∧ t.2.PauliString n := by
  intro t ht
  rcases List.mem_append.1 ht with ht | ht
  · obtain ⟨i, hi, rfl⟩ := List.mem_map.1 ht
    have hi := List.mem_range.1 hi
    refine ⟨by simp, ⟨?_, ?_, ?_⟩⟩
    · intro g hg; rw [List.mem_singleton.1 hg]; exact pauliGate_Z i
    · simp
    · intro g hg; rw [List.mem_singleton.1 hg]; exact ⟨hi, hi⟩
  · obtain ⟨i, hi, rfl⟩ := List.mem_map.1 ht
    have hi := List.mem_range.1 hi
    refine ⟨by simp, ⟨?_, ?_, ?_⟩⟩
    · intro g hg
      simp only [List.mem_cons, List.not_mem_nil, or_false] at hg
      rcases hg with rfl | rfl <;> exact pauliGate_X _
    · simp [gX]
    · intro g hg
      simp only [List.mem_cons, List.not_mem_nil, or_false] at hg
      rcases hg with rfl | rfl <;> simp only [gX] <;> omega

/-- **C90.** For every length, field and coupling, `create_TFIM` succeeds; its Hamiltonian is the open-chain transverse-field
Ising Hamiltonian, acts on `n` qubits, and is Hermitian; its reference is the empty occupation list of length `n`. -/
theorem C90_tfim (N : PyNum) (n : ℕ) (h J : ℝ) : ∃ H ref, createTFIM N n h J = .ok (H, ref) ∧ H.op = tfimOp n h J ∧
    (∀ t ∈ H, t.2.PauliString n) ∧ HermitianOn n H.op ∧ ref = List.replicate n 0 :=
  ⟨_, _, createTFIM_eq N n h J, tfimTerms_op n h J, fun t ht => (tfim_pauli n h J t ht).2, hermitian_of_real (tfim_pauli n h J), rfl⟩

theorem nBelow_flip_lt {I i n : ℕ} (h : i < n) : (-1 : ℂ) ^ nBelow (flipBit I i) n = -(-1) ^ nBelow I n := by
  induction n with
  | zero => omega
  | succ n ih =>
    have e : ∀ K, nBelow K (n + 1) = nBelow K n + if K.testBit n then 1 else 0 := fun K => by
      unfold nBelow; rw [List.range_succ, List.countP_append, List.countP_singleton]
    rw [e, e, pow_add, pow_add]
    by_cases hi : i = n
    · subst hi
      have : nBelow (flipBit I i) i = nBelow I i := by
        unfold nBelow
        refine List.countP_congr fun k hk => ?_
        rw [testBit_flipBit, if_neg (by have := List.mem_range.1 hk; omega)]
      rw [this, testBit_flipBit, if_pos rfl]
      cases I.testBit i <;> simp
    · have : (flipBit I i).testBit n = I.testBit n := by rw [testBit_flipBit]; exact if_neg (by omega)
      rw [ih (by omega), this]
      ring

/-- **C90.** The Hamiltonian conserves the parity of the number of excited sites. -/
theorem C90_parity (n : ℕ) (h J : ℝ) : Commute (parityOp n) (tfimOp n h J) := by
  have hz : ∀ i, Commute (parityOp n) (opZ i) := fun i => by
    apply Op.ext'; intro ψ I
    simp only [Module.End.mul_apply, opZ_apply, parityOp, LinearMap.coe_mk, AddHom.coe_mk]
    ring
  have hx : ∀ i ∈ Finset.range (n - 1), Commute (parityOp n) (opX i * opX (i + 1)) := fun i hi => by
    have hi := Finset.mem_range.1 hi
    apply Op.ext'; intro ψ I
    simp only [Module.End.mul_apply, opX_apply, parityOp, LinearMap.coe_mk, AddHom.coe_mk]
    rw [nBelow_flip_lt (by omega), nBelow_flip_lt (by omega), neg_neg]
  exact (((Commute.sum_right _ _ _ fun i _ => hz i).smul_right _).neg_right).sub_right ((Commute.sum_right _ _ _ hx).smul_right _)

/-- **C90.** The reference (no site excited) has energy `-h n`. -/
theorem C90_reference_energy (n : ℕ) (h J : ℝ) : energy n (tfimOp n h J) (Pi.single 0 1) = -h * n := by
  have h1 : ∀ ψ : St, inner n (Pi.single 0 1) ψ = ψ 0 := fun ψ => by
    unfold inner
    rw [Finset.sum_eq_single_of_mem 0 (by simp)]
    · simp
    · intro I _ hI; simp [hI]
  have hz : ∀ i, opZ i (Pi.single 0 1) 0 = 1 := fun i => by rw [opZ_apply]; simp
  have hx : ∀ i, (opX i * opX (i + 1)) (Pi.single 0 1) 0 = 0 := fun i => by
    rw [Module.End.mul_apply, opX_apply, opX_apply, Pi.single_eq_of_ne]
    intro e
    have := congrArg (fun K => K.testBit i) e
    simp [testBit_flipBit] at this
  unfold energy
  rw [h1]
  simp only [tfimOp, LinearMap.sub_apply, LinearMap.neg_apply, LinearMap.smul_apply, LinearMap.sum_apply, Pi.sub_apply, Pi.neg_apply, Pi.smul_apply,
    Finset.sum_apply, hz, hx]
  simp

/-- **C90.** `system_factory(system_type="model", build_type="TFIM", ...)` calls this builder and no other combination does. -/
theorem C90_factory (st bt : String) : systemFactory st bt = .ok .tfim ↔ st = "model" ∧ bt = "TFIM" := by
  unfold systemFactory
  split_ifs with h1 h2 h3 h4 h5 <;> simp_all

/-- **C90.** The three documented combinations are the accepted ones, each calls its own builder; any other raises `TypeError`. -/
theorem C90_factory_all (st bt : String) :
    (systemFactory st bt = .ok .external ↔ st = "molecule" ∧ bt = "external") ∧ (systemFactory st bt = .ok .psi4 ↔ st = "molecule" ∧ bt = "psi4") ∧
      (systemFactory st bt = .error .typeError ↔ (st, bt) ∉ [("molecule", "external"), ("molecule", "psi4"), ("model", "TFIM")]) := by
  unfold systemFactory
  split_ifs with h1 h2 h3 h4 h5 <;> simp_all

/-- two sites -/
theorem C90_example (N : PyNum) : createTFIM N 2 1 (1 / 2) = .ok ([(((-1 : ℝ) : ℂ), [gZ 0]), (((-1 : ℝ) : ℂ), [gZ 1]), (((-(1 / 2) : ℝ) : ℂ), [gX 0, gX 1])], [0, 0]) := by
  rw [createTFIM_eq]; rfl

end QF
