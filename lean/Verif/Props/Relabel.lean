import Verif.Props.ExpVal
import Verif.Lemmas.JW
import Mathlib.Combinatorics.Colex

/-!
C118: the names of the qubits and the size of the register do not matter; energies of independent subsystems add.
-/
namespace QF

/-- the same gate on other qubits -/
def Gate.relabel (σ : ℕ → ℕ) (g : Gate) : Gate := { g with target := σ g.target, control := σ g.control }

def Circuit.relabel (σ : ℕ → ℕ) (c : Circuit) : Circuit := c.map (Gate.relabel σ)

def QubitOperator.relabel (σ : ℕ → ℕ) (A : QubitOperator) : QubitOperator := A.map fun t => (t.1, Circuit.relabel σ t.2)

/-- `gate(type, σ(target), σ(control), θ)` is the relabelled gate, and is refused when the original is -/
theorem C118_gate {σ : ℕ → ℕ} (hσ : Function.Injective σ) (ty : String) (t c : ℕ) (θ : ℝ) :
    makeGate ty (σ t) (σ c) θ = (makeGate ty t c θ).map (Gate.relabel σ) := by
  unfold makeGate
  by_cases h : t = c
  · subst h
    rw [if_pos rfl, if_pos rfl]
    iterate 12 (rw [apply_ite (Except.map (Gate.relabel σ))]; refine ite_congr rfl (fun _ => rfl) (fun _ => ?_))
    rfl
  · rw [if_neg h, if_neg (fun e => h (hσ e))]
    repeat (rw [apply_ite (Except.map (Gate.relabel σ))]; refine ite_congr rfl (fun _ => rfl) (fun _ => ?_))
    rfl

/-- the permutation of basis states belonging to a permutation of qubits -/
theorem bitPerm (σ : Equiv.Perm ℕ) : ∃ π : Equiv.Perm ℕ, ∀ I q, (π I).testBit (σ q) = I.testBit q := by
  have hm : ∀ I q : ℕ, q ∈ Finset.equivBitIndices I ↔ I.testBit q = true := fun I q => by simp
  refine ⟨Finset.equivBitIndices.trans (σ.finsetCongr.trans Finset.equivBitIndices.symm), fun I q => ?_⟩
  rw [Bool.eq_iff_iff, ← hm, ← hm]
  simp only [Equiv.trans_apply, Equiv.apply_symm_apply, Equiv.finsetCongr_apply]
  simp

theorem relabel_setBit {σ π : Equiv.Perm ℕ} (h : ∀ I q, (π I).testBit (σ q) = I.testBit q) (I t : ℕ) (b : Bool) : setBit (π I) (σ t) b = π (setBit I t b) := by
  apply eq_of_bits
  intro q
  obtain ⟨p, rfl⟩ := σ.surjective q
  rw [testBit_setBit, h, h, testBit_setBit]
  simp [σ.injective.eq_iff]

theorem relabel_gate_op {σ π : Equiv.Perm ℕ} (h : ∀ I q, (π I).testBit (σ q) = I.testBit q) (g : Gate) {ψ ψ' : St} (hψ : ∀ I, ψ' (π I) = ψ I) (I : ℕ) :
    (g.relabel σ).op ψ' (π I) = g.op ψ I := by
  unfold Gate.op Gate.relabel matOp
  simp only [σ.injective.eq_iff]
  by_cases e : g.target = g.control
  · rw [if_pos e, if_pos e, op1_apply, op1_apply]
    simp only [h, relabel_setBit h, hψ]
  · rw [if_neg e, if_neg e, op2_apply, op2_apply]
    simp only [h, relabel_setBit h, hψ]

theorem relabel_circuit_op {σ π : Equiv.Perm ℕ} (h : ∀ I q, (π I).testBit (σ q) = I.testBit q) : ∀ (c : Circuit) {ψ ψ' : St}, (∀ I, ψ' (π I) = ψ I) → ∀ I,
    (c.relabel σ).op ψ' (π I) = c.op ψ I
  | [], ψ, ψ', hψ, I => by simpa [Circuit.relabel, Circuit.op_nil] using hψ I
  | g :: c, ψ, ψ', hψ, I => by
    show Circuit.op (g.relabel σ :: Circuit.relabel σ c) ψ' (π I) = Circuit.op (g :: c) ψ I
    rw [Circuit.op_cons, Circuit.op_cons, Module.End.mul_apply, Module.End.mul_apply]
    exact relabel_circuit_op h c (fun I => relabel_gate_op h g hψ I) I

theorem relabel_op {σ π : Equiv.Perm ℕ} (h : ∀ I q, (π I).testBit (σ q) = I.testBit q) (A : QubitOperator) {ψ ψ' : St} (hψ : ∀ I, ψ' (π I) = ψ I) (I : ℕ) :
    (A.relabel σ).op ψ' (π I) = A.op ψ I := by
  induction A with
  | nil => simp [QubitOperator.relabel, QubitOperator.op]
  | cons t A ih =>
    show QubitOperator.op ((t.1, Circuit.relabel σ t.2) :: QubitOperator.relabel σ A) ψ' (π I) = _
    rw [op_cons', op_cons', LinearMap.add_apply, LinearMap.add_apply, Pi.add_apply, Pi.add_apply, ih, LinearMap.smul_apply, LinearMap.smul_apply, Pi.smul_apply, Pi.smul_apply,
      relabel_circuit_op h t.2 hψ]

theorem bitPerm_lt {σ π : Equiv.Perm ℕ} (h : ∀ I q, (π I).testBit (σ q) = I.testBit q) {n : ℕ} (hσ : ∀ q, q < n ↔ σ q < n) (I : ℕ) : π I < 2 ^ n ↔ I < 2 ^ n := by
  have lt : ∀ J : ℕ, J < 2 ^ n ↔ ∀ q, n ≤ q → J.testBit q = false := fun J =>
    ⟨fun hJ q hq => Nat.testBit_lt_two_pow (lt_of_lt_of_le hJ (Nat.pow_le_pow_right (by decide) hq)), fun hJ => Nat.lt_pow_two_of_testBit _ hJ⟩
  rw [lt, lt]
  constructor
  · intro hI q hq
    rw [← h]; exact hI _ (by have := (hσ q).not; omega)
  · intro hI q hq
    obtain ⟨p, rfl⟩ := σ.surjective q
    rw [h]; exact hI p (by have := (hσ p).not; omega)

theorem relabel_inner {σ π : Equiv.Perm ℕ} (h : ∀ I q, (π I).testBit (σ q) = I.testBit q) {n : ℕ} (hσ : ∀ q, q < n ↔ σ q < n) {φ φ' ψ ψ' : St} (hφ : ∀ I, φ' (π I) = φ I)
    (hψ : ∀ I, ψ' (π I) = ψ I) : inner n φ' ψ' = inner n φ ψ := by
  unfold inner
  symm
  refine Finset.sum_bij (fun I _ => π I) (fun I hI => Finset.mem_range.2 ((bitPerm_lt h hσ I).2 (Finset.mem_range.1 hI))) (fun I _ J _ e => π.injective e) (fun J hJ => ?_) (fun I _ => by rw [hφ, hψ])
  refine ⟨π.symm J, Finset.mem_range.2 ((bitPerm_lt h hσ _).1 (by simpa using Finset.mem_range.1 hJ)), by simp⟩

theorem relabel_fits {σ : ℕ → ℕ} {n : ℕ} (hσ : ∀ q, q < n → σ q < n) {c : Circuit} (hc : c.Fits n) : (c.relabel σ).Fits n := by
  intro g hg
  obtain ⟨g0, h0, rfl⟩ := List.mem_map.1 hg
  exact ⟨hσ _ (hc g0 h0).1, hσ _ (hc g0 h0).2⟩

theorem relabel_exact {σ : ℕ → ℕ} (hσ : Function.Injective σ) {c : Circuit} (hc : ∀ g ∈ c, ExactGate g) : ∀ g ∈ c.relabel σ, ExactGate g := by
  intro g hg
  obtain ⟨g0, h0, rfl⟩ := List.mem_map.1 hg
  obtain ⟨h1, h2, h3⟩ := hc g0 h0
  refine ⟨?_, ⟨fun e => h2.1 (hσ e), fun e => h2.2 fun e' => e (congrArg σ e')⟩, h3⟩
  unfold MatUnitary at h1 ⊢
  simp only [Gate.relabel, hσ.eq_iff]
  exact h1

theorem relabel_op_ok {σ : ℕ → ℕ} (hi : Function.Injective σ) {n : ℕ} (hσ : ∀ q, q < n → σ q < n) {A : QubitOperator} (hA : ∀ t ∈ A, t.2.Fits n ∧ ∀ g ∈ t.2, ExactGate g) :
    ∀ t ∈ A.relabel σ, t.2.Fits n ∧ ∀ g ∈ t.2, ExactGate g := by
  intro t ht
  obtain ⟨t0, h0, rfl⟩ := List.mem_map.1 ht
  exact ⟨relabel_fits hσ (hA t0 h0).1, relabel_exact hi (hA t0 h0).2⟩

/-- C118: for a permutation `σ` of the qubits of the register and the permutation `π` of the basis states it induces (bit `σ(q)` of `π(I)` is bit `q` of `I`): running the relabelled
circuit gives the state with the amplitudes in the relabelled places, and relabelled operators have the same expectation values. -/
theorem C118_relabel (σ : Equiv.Perm ℕ) (n : ℕ) (hσ : ∀ q, q < n ↔ σ q < n) : ∃ π : Equiv.Perm ℕ, (∀ I q, (π I).testBit (σ q) = I.testBit q) ∧ (∀ I, π I < 2 ^ n ↔ I < 2 ^ n) ∧
    ∀ (c : Circuit) (A : QubitOperator), c.Fits n → (∀ g ∈ c, ExactGate g) → (∀ t ∈ A, t.2.Fits n ∧ ∀ g ∈ t.2, ExactGate g) →
      ∃ q q', (Computer.init n).applyCircuit c = .ok q ∧ (Computer.init n).applyCircuit (c.relabel σ) = .ok q' ∧ (∀ I, q'.psi (π I) = q.psi I) ∧
        ∃ v r r', q.directOpExpVal none A = .ok (v, r) ∧ q'.directOpExpVal none (A.relabel σ) = .ok (v, r') := by
  obtain ⟨π, hπ⟩ := bitPerm σ
  refine ⟨π, hπ, bitPerm_lt hπ hσ, fun c A hc hg hA => ?_⟩
  obtain ⟨q, e1, w1, n1, p1⟩ := applyCircuit_exact (q := Computer.init n) c (Computer.WF.init _) hc hg
  obtain ⟨q', e2, w2, n2, p2⟩ := applyCircuit_exact (q := Computer.init n) (c.relabel σ) (Computer.WF.init _) (relabel_fits (fun q => (hσ q).1) hc) (relabel_exact σ.injective hg)
  have n1 : q.nqubit = n := n1
  have n2 : q'.nqubit = n := n2
  have h0 : ∀ I, (Computer.init n).psi (π I) = (Computer.init n).psi I := by
    intro I
    have hz : π 0 = 0 := eq_of_bits fun q => by obtain ⟨p, rfl⟩ := σ.surjective q; rw [hπ]; simp
    rw [init_psi]
    have : π I = 0 ↔ I = 0 := by rw [← hz, π.injective.eq_iff, hz]
    simp [this]
  have hpsi : ∀ I, q'.psi (π I) = q.psi I := fun I => by rw [p1, p2]; exact relabel_circuit_op hπ c h0 I
  obtain ⟨r, f1, -⟩ := C29_direct_op q A w1 (by rw [n1]; exact hA)
  obtain ⟨r', f2, -⟩ := C29_direct_op q' (A.relabel σ) w2 (by rw [n2]; exact relabel_op_ok σ.injective (fun q => (hσ q).1) hA)
  refine ⟨q, q', e1, e2, hpsi, _, r, r', f1, ?_⟩
  rw [f2, n1, n2, relabel_inner hπ hσ hpsi (fun I => relabel_op hπ A hpsi I)]

/-- C118: a larger register. The amplitudes on the extra qubits vanish, the others and all expectation values are the same. -/
theorem C118_register (c : Circuit) (A : QubitOperator) (n n' : ℕ) (hn : n ≤ n') (hc : c.Fits n) (hg : ∀ g ∈ c, ExactGate g) (hA : ∀ t ∈ A, t.2.Fits n ∧ ∀ g ∈ t.2, ExactGate g) :
    ∃ q q', (Computer.init n).applyCircuit c = .ok q ∧ (Computer.init n').applyCircuit c = .ok q' ∧ q.coeff.length = 2 ^ n ∧ q'.coeff.length = 2 ^ n' ∧ q'.psi = q.psi ∧
      (∀ I, 2 ^ n ≤ I → q'.psi I = 0) ∧ ∃ v r r', q.directOpExpVal none A = .ok (v, r) ∧ q'.directOpExpVal none A = .ok (v, r') := by
  have up : ∀ {c : Circuit}, c.Fits n → c.Fits n' := fun hc g h => ⟨lt_of_lt_of_le (hc g h).1 hn, lt_of_lt_of_le (hc g h).2 hn⟩
  obtain ⟨q, e1, w1, n1, p1⟩ := applyCircuit_exact (q := Computer.init n) c (Computer.WF.init _) hc hg
  obtain ⟨q', e2, w2, n2, p2⟩ := applyCircuit_exact (q := Computer.init n') c (Computer.WF.init _) (up hc) hg
  have n1 : q.nqubit = n := n1
  have n2 : q'.nqubit = n' := n2
  have hp : q'.psi = q.psi := by rw [p1, p2, init_psi, init_psi]
  have h0 : ∀ I, 2 ^ n ≤ I → q'.psi I = 0 := fun I hI => by
    rw [hp]
    exact w1.psi_ge (by rw [n1]; exact hI)
  obtain ⟨r, f1, -⟩ := C29_direct_op q A w1 (by rw [n1]; exact hA)
  obtain ⟨r', f2, -⟩ := C29_direct_op q' A w2 (by rw [n2]; exact fun t ht => ⟨up (hA t ht).1, (hA t ht).2⟩)
  refine ⟨q, q', e1, e2, by rw [w1.len, n1], by rw [w2.len, n2], hp, h0, _, r, r', f1, ?_⟩
  rw [f2, n1, n2, hp]
  congr 2
  unfold inner
  refine (Finset.sum_subset (Finset.range_mono (Nat.pow_le_pow_right (by decide) hn)) fun I _ hI => ?_).symm
  rw [← hp, h0 I (by simpa using hI), map_zero, zero_mul]

/-! ### independent subsystems -/

/-- `a` on the first `n` qubits, `b` on the others -/
def tens (n : ℕ) (a b : St) : St := fun I => a (I % 2 ^ n) * b (I / 2 ^ n)

/-- the gates moved up by `n` qubits -/
def Circuit.shift (n : ℕ) (c : Circuit) : Circuit := c.relabel (· + n)
def QubitOperator.shift (n : ℕ) (A : QubitOperator) : QubitOperator := A.relabel (· + n)

theorem setBit_low {n t : ℕ} (ht : t < n) (I : ℕ) (b : Bool) : setBit I t b % 2 ^ n = setBit (I % 2 ^ n) t b ∧ setBit I t b / 2 ^ n = I / 2 ^ n := by
  refine ⟨eq_of_bits fun q => ?_, eq_of_bits fun q => ?_⟩
  · rw [Nat.testBit_mod_two_pow, testBit_setBit, testBit_setBit, Nat.testBit_mod_two_pow]
    by_cases hq : q = t
    · subst hq; simp [ht]
    · simp [hq]
  · rw [Nat.testBit_div_two_pow, Nat.testBit_div_two_pow, testBit_setBit, if_neg (by omega)]

theorem setBit_high {n t : ℕ} (I : ℕ) (b : Bool) : setBit I (t + n) b % 2 ^ n = I % 2 ^ n ∧ setBit I (t + n) b / 2 ^ n = setBit (I / 2 ^ n) t b := by
  refine ⟨eq_of_bits fun q => ?_, eq_of_bits fun q => ?_⟩
  · rw [Nat.testBit_mod_two_pow, Nat.testBit_mod_two_pow, testBit_setBit]
    by_cases hq : q < n
    · rw [if_neg (by omega)]
    · simp [hq]
  · rw [Nat.testBit_div_two_pow, testBit_setBit, testBit_setBit, Nat.testBit_div_two_pow]
    by_cases hq : q = t
    · subst hq; rw [if_pos rfl, if_pos rfl]
    · rw [if_neg (by omega), if_neg hq]

theorem tens_low {n : ℕ} {g : Gate} (h : g.target < n ∧ g.control < n) (a b : St) : g.op (tens n a b) = tens n (g.op a) b := by
  funext I
  have t1 : ∀ t, t < n → I.testBit t = (I % 2 ^ n).testBit t := fun t ht => by rw [Nat.testBit_mod_two_pow]; simp [ht]
  unfold Gate.op matOp tens
  by_cases e : g.target = g.control
  · rw [if_pos e, op1_apply, op1_apply]
    simp only [setBit_low h.1, t1 _ h.1]; ring
  · rw [if_neg e, op2_apply, op2_apply]
    simp only [setBit_low h.1, setBit_low h.2, t1 _ h.1, t1 _ h.2]; ring

theorem tens_high {n : ℕ} (g : Gate) (a b : St) : (g.relabel (· + n)).op (tens n a b) = tens n a (g.op b) := by
  funext I
  have t1 : ∀ t, I.testBit (t + n) = (I / 2 ^ n).testBit t := fun t => by rw [Nat.testBit_div_two_pow]
  unfold Gate.op Gate.relabel matOp tens
  simp only [Nat.add_right_cancel_iff]
  by_cases e : g.target = g.control
  · rw [if_pos e, if_pos e, op1_apply, op1_apply]
    simp only [setBit_high, t1]; ring
  · rw [if_neg e, if_neg e, op2_apply, op2_apply]
    simp only [setBit_high, t1]; ring

theorem tens_circuit_low {n : ℕ} : ∀ {c : Circuit}, c.Fits n → ∀ a b : St, c.op (tens n a b) = tens n (c.op a) b
  | [], _, a, b => by simp [Circuit.op_nil]
  | g :: c, hc, a, b => by
    rw [Circuit.op_cons, Module.End.mul_apply, Module.End.mul_apply, tens_low (hc g (by simp))]
    exact tens_circuit_low (fun g h => hc g (by simp [h])) _ _

theorem tens_circuit_high {n : ℕ} : ∀ (c : Circuit) (a b : St), (c.shift n).op (tens n a b) = tens n a (c.op b)
  | [], a, b => by simp [Circuit.op_nil, Circuit.shift, Circuit.relabel]
  | g :: c, a, b => by
    show Circuit.op (g.relabel (· + n) :: Circuit.shift n c) _ = _
    rw [Circuit.op_cons, Circuit.op_cons, Module.End.mul_apply, Module.End.mul_apply, tens_high]
    exact tens_circuit_high c _ _

theorem inner_tens (n m : ℕ) (a b c d : St) : inner (n + m) (tens n a b) (tens n c d) = inner n a c * inner m b d := by
  unfold inner
  rw [Finset.sum_mul_sum, ← Finset.sum_product', pow_add]
  have hN : 0 < 2 ^ n := by positivity
  refine Finset.sum_nbij' (fun I => (I % 2 ^ n, I / 2 ^ n)) (fun p => p.1 + 2 ^ n * p.2) ?_ ?_ ?_ ?_ ?_
  · intro I hI
    exact Finset.mem_product.2 ⟨Finset.mem_range.2 (Nat.mod_lt _ hN), Finset.mem_range.2 (Nat.div_lt_of_lt_mul (Finset.mem_range.1 hI))⟩
  · intro p hp
    have h1 := Finset.mem_range.1 (Finset.mem_product.1 hp).1
    have h2 := Finset.mem_range.1 (Finset.mem_product.1 hp).2
    refine Finset.mem_range.2 ?_
    calc p.1 + 2 ^ n * p.2 < 2 ^ n * (p.2 + 1) := by rw [Nat.mul_add]; omega
      _ ≤ 2 ^ n * 2 ^ m := Nat.mul_le_mul_left _ h2
  · intro I _; exact Nat.mod_add_div I _
  · intro p hp
    have h1 := Finset.mem_range.1 (Finset.mem_product.1 hp).1
    ext
    · show (p.1 + 2 ^ n * p.2) % 2 ^ n = p.1
      rw [Nat.add_mul_mod_self_left, Nat.mod_eq_of_lt h1]
    · show (p.1 + 2 ^ n * p.2) / 2 ^ n = p.2
      rw [Nat.add_mul_div_left _ _ hN, Nat.div_eq_of_lt h1, zero_add]
  · intro I _
    simp only [tens, map_mul]; ring

theorem tens_add_left (n : ℕ) (a a' b : St) : tens n (a + a') b = tens n a b + tens n a' b := by funext I; simp only [tens, Pi.add_apply]; ring
theorem tens_smul_left (n : ℕ) (z : ℂ) (a b : St) : tens n (z • a) b = z • tens n a b := by funext I; simp only [tens, Pi.smul_apply, smul_eq_mul]; ring
theorem tens_add_right (n : ℕ) (a b b' : St) : tens n a (b + b') = tens n a b + tens n a b' := by funext I; simp only [tens, Pi.add_apply]; ring
theorem tens_smul_right (n : ℕ) (z : ℂ) (a b : St) : tens n a (z • b) = z • tens n a b := by funext I; simp only [tens, Pi.smul_apply, smul_eq_mul]; ring

theorem tens_op_low {n : ℕ} {A : QubitOperator} (hA : ∀ t ∈ A, t.2.Fits n) (a b : St) : A.op (tens n a b) = tens n (A.op a) b := by
  induction A with
  | nil => funext I; simp [QubitOperator.op, tens]
  | cons t A ih =>
    rw [op_cons', LinearMap.add_apply, LinearMap.add_apply, LinearMap.smul_apply, LinearMap.smul_apply, ih (fun t h => hA t (by simp [h])), tens_circuit_low (hA t (by simp)), tens_add_left,
      tens_smul_left]

theorem tens_op_high (n : ℕ) (A : QubitOperator) (a b : St) : (A.shift n).op (tens n a b) = tens n a (A.op b) := by
  induction A with
  | nil => funext I; simp [QubitOperator.shift, QubitOperator.relabel, QubitOperator.op, tens]
  | cons t A ih =>
    show QubitOperator.op ((t.1, Circuit.shift n t.2) :: QubitOperator.shift n A) _ = _
    rw [op_cons', op_cons', LinearMap.add_apply, LinearMap.add_apply, LinearMap.smul_apply, LinearMap.smul_apply, ih, tens_circuit_high, tens_add_right, tens_smul_right]

/-- C118: two subsystems of `n` and `m` qubits that do not interact. The amplitudes of the joint calculation are the products, whichever circuit runs first, and expectation values of
the sum of the operators are the sums: the energy is additive. -/
theorem C118_additive (n m : ℕ) (c1 c2 : Circuit) (A1 A2 : QubitOperator) (h1 : c1.Fits n) (h2 : c2.Fits m) (g1 : ∀ g ∈ c1, ExactGate g) (g2 : ∀ g ∈ c2, ExactGate g)
    (hA1 : ∀ t ∈ A1, t.2.Fits n ∧ ∀ g ∈ t.2, ExactGate g) (hA2 : ∀ t ∈ A2, t.2.Fits m ∧ ∀ g ∈ t.2, ExactGate g) :
    ∃ q1 q2 q q', (Computer.init n).applyCircuit c1 = .ok q1 ∧ (Computer.init m).applyCircuit c2 = .ok q2 ∧
      (Computer.init (n + m)).applyCircuit (c1.addCircuit (c2.shift n)) = .ok q ∧ (Computer.init (n + m)).applyCircuit (Circuit.addCircuit (c2.shift n) c1) = .ok q' ∧
      (∀ I, q.psi I = q1.psi (I % 2 ^ n) * q2.psi (I / 2 ^ n)) ∧ q'.psi = q.psi ∧
      ∃ v1 v2 r1 r2 r, q1.directOpExpVal none A1 = .ok (v1, r1) ∧ q2.directOpExpVal none A2 = .ok (v2, r2) ∧ q.directOpExpVal none (A1.addOp (A2.shift n)) = .ok (v1 + v2, r) := by
  have up : ∀ {c : Circuit}, c.Fits n → c.Fits (n + m) := fun hc g h => ⟨by have := (hc g h).1; omega, by have := (hc g h).2; omega⟩
  have a1 : c1.addCircuit (c2.shift n) = c1 ++ c2.shift n := addCircuit_eq _ _
  have a2 : Circuit.addCircuit (c2.shift n) c1 = c2.shift n ++ c1 := addCircuit_eq _ _
  rw [a1, a2, addOp_eq]
  have inj : Function.Injective (· + n) := fun a b h => Nat.add_right_cancel h
  have sh : ∀ {c : Circuit}, c.Fits m → (c.shift n).Fits (n + m) := fun hc g hg => by
    obtain ⟨g0, h0, rfl⟩ := List.mem_map.1 hg
    have := hc g0 h0
    exact ⟨by show g0.target + n < n + m; omega, by show g0.control + n < n + m; omega⟩
  obtain ⟨q1, e1, w1, n1, p1⟩ := applyCircuit_exact (q := Computer.init n) c1 (Computer.WF.init _) h1 g1
  obtain ⟨q2, e2, w2, n2, p2⟩ := applyCircuit_exact (q := Computer.init m) c2 (Computer.WF.init _) h2 g2
  have both : ∀ c ∈ [c1 ++ c2.shift n, c2.shift n ++ c1], Circuit.Fits (n + m) c ∧ ∀ g ∈ c, ExactGate g := by
    intro c hc
    have : ∀ g ∈ c, g ∈ c1 ∨ g ∈ c2.shift n := by
      intro g hg
      simp only [List.mem_cons, List.not_mem_nil, or_false] at hc
      rcases hc with rfl | rfl
      · exact List.mem_append.1 hg
      · exact (List.mem_append.1 hg).symm
    refine ⟨fun g hg => ?_, fun g hg => ?_⟩
    · rcases this g hg with h | h
      · exact up h1 g h
      · exact sh h2 g h
    · rcases this g hg with h | h
      · exact g1 g h
      · exact relabel_exact inj g2 g h
  obtain ⟨q, e, w, nq, p⟩ := applyCircuit_exact (q := Computer.init (n + m)) (c1 ++ c2.shift n) (Computer.WF.init _) (both _ (by simp)).1 (both _ (by simp)).2
  obtain ⟨q', e', w', nq', p'⟩ := applyCircuit_exact (q := Computer.init (n + m)) (c2.shift n ++ c1) (Computer.WF.init _) (both _ (by simp)).1 (both _ (by simp)).2
  have n1 : q1.nqubit = n := n1
  have n2 : q2.nqubit = m := n2
  have nq : q.nqubit = n + m := nq
  have i0 : (Computer.init (n + m)).psi = tens n (Computer.init n).psi (Computer.init m).psi := by
    rw [init_psi, init_psi, init_psi]
    funext I
    unfold tens
    by_cases h : I = 0
    · subst h; simp
    · by_cases h' : I % 2 ^ n = 0
      · have : I / 2 ^ n ≠ 0 := fun h0 => h (by rw [← Nat.mod_add_div I (2 ^ n), h', h0]; simp)
        simp [h, this]
      · simp [h, h']
  have hq : q.psi = tens n q1.psi q2.psi := by
    rw [p, i0, p1, p2]
    rw [Circuit.op_append, Module.End.mul_apply, tens_circuit_low h1, tens_circuit_high]
  have hq' : q'.psi = tens n q1.psi q2.psi := by
    rw [p', i0, p1, p2]
    rw [Circuit.op_append, Module.End.mul_apply, tens_circuit_high, tens_circuit_low h1]
  have nrm1 : inner n q1.psi q1.psi = 1 := by
    rw [p1, inner_circuit h1 (fun g hg => (g1 g hg).unitary), init_psi]; simp [inner]
  have nrm2 : inner m q2.psi q2.psi = 1 := by
    rw [p2, inner_circuit h2 (fun g hg => (g2 g hg).unitary), init_psi]; simp [inner]
  obtain ⟨r1, f1, -⟩ := C29_direct_op q1 A1 w1 (by rw [n1]; exact hA1)
  obtain ⟨r2, f2, -⟩ := C29_direct_op q2 A2 w2 (by rw [n2]; exact hA2)
  obtain ⟨r, f, -⟩ := C29_direct_op q (A1 ++ A2.shift n) w (by
    rw [nq]
    intro t ht
    rcases List.mem_append.1 ht with h | h
    · exact ⟨up (hA1 t h).1, (hA1 t h).2⟩
    · obtain ⟨t0, h0, rfl⟩ := List.mem_map.1 h
      exact ⟨sh (hA2 t0 h0).1, relabel_exact inj (hA2 t0 h0).2⟩)
  refine ⟨q1, q2, q, q', e1, e2, e, e', fun I => by rw [hq]; rfl, by rw [hq, hq'], _, _, r1, r2, r, f1, f2, ?_⟩
  rw [f, n1, n2, nq, hq]
  have : QubitOperator.op (A1 ++ A2.shift n) = A1.op + (A2.shift n).op := by simp [QubitOperator.op]
  rw [this, LinearMap.add_apply, tens_op_low (fun t h => (hA1 t h).1), tens_op_high, inner_add_right, inner_tens, inner_tens, nrm1, nrm2, mul_one, one_mul]

/-- C118, a concrete case of the hypotheses: two circuits on three and two qubits with operators on them, and the exchange of two qubits -/
theorem C118_example : Circuit.Fits 3 [gX 0, gY 2, gZ 1] ∧ (∀ g ∈ [gX 0, gY 2, gZ 1], ExactGate g) ∧ Circuit.Fits 2 [gY 1] ∧
    (∀ t ∈ ([(0.5, [gZ 0, gX 2]), (-1, [gY 1])] : QubitOperator), Circuit.Fits 3 t.2 ∧ ∀ g ∈ t.2, ExactGate g) ∧ ∀ q, q < 3 ↔ Equiv.swap 0 2 q < 3 := by
  have ex : ∀ g, (∃ t, g = gX t ∨ g = gY t ∨ g = gZ t) → ExactGate g := by
    rintro g ⟨t, rfl | rfl | rfl⟩
    · exact (pauliGate_X t).exact
    · exact (pauliGate_Y t).exact
    · exact (pauliGate_Z t).exact
  refine ⟨?_, ?_, ?_, ?_, ?_⟩
  · intro g hg
    simp only [List.mem_cons, List.not_mem_nil, or_false] at hg
    rcases hg with rfl | rfl | rfl <;> simp [gX, gY, gZ]
  · intro g hg
    simp only [List.mem_cons, List.not_mem_nil, or_false] at hg
    refine ex g ?_
    rcases hg with rfl | rfl | rfl
    · exact ⟨0, .inl rfl⟩
    · exact ⟨2, .inr (.inl rfl)⟩
    · exact ⟨1, .inr (.inr rfl)⟩
  · intro g hg
    simp only [List.mem_cons, List.not_mem_nil, or_false] at hg
    subst hg; simp [gY]
  · intro t ht
    simp only [List.mem_cons, List.not_mem_nil, or_false] at ht
    rcases ht with rfl | rfl
    · refine ⟨fun g hg => ?_, fun g hg => ex g ?_⟩
      · simp only [List.mem_cons, List.not_mem_nil, or_false] at hg
        rcases hg with rfl | rfl <;> simp [gX, gZ]
      · simp only [List.mem_cons, List.not_mem_nil, or_false] at hg
        rcases hg with rfl | rfl
        · exact ⟨0, .inr (.inr rfl)⟩
        · exact ⟨2, .inl rfl⟩
    · refine ⟨fun g hg => ?_, fun g hg => ex g ?_⟩
      · simp only [List.mem_cons, List.not_mem_nil, or_false] at hg
        subst hg; simp [gY]
      · simp only [List.mem_cons, List.not_mem_nil, or_false] at hg
        subst hg; exact ⟨1, .inr (.inl rfl)⟩
  · intro q
    by_cases h0 : q = 0
    · subst h0; simp
    · by_cases h2 : q = 2
      · subst h2; simp
      · rw [Equiv.swap_apply_of_ne_of_ne h0 h2]

end QF
