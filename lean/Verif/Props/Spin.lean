import Verif.Model.Spin
import Verif.Props.JW

/-!
C62: the total spin operators.
-/
namespace QF
open SQOperator

/-! ### specification: spatial orbital `i` has the alpha spin orbital `2i` and the beta spin orbital `2i+1` -/

/-- total spin projection on `k` spatial orbitals: diagonal, half the number of alpha minus beta electrons -/
noncomputable def SzOp (k : ℕ) : Op where
  toFun ψ I := (∑ i ∈ Finset.range k, ((if I.testBit (2 * i) then 1 else 0) - (if I.testBit (2 * i + 1) then 1 else 0)) / 2 : ℂ) * ψ I
  map_add' ψ φ := by funext I; simp only [Pi.add_apply]; ring
  map_smul' a ψ := by funext I; simp only [Pi.smul_apply, smul_eq_mul, RingHom.id_apply]; ring

/-- `S₊ = Σᵢ a†_{iα} a_{iβ}` -/
noncomputable def SpOp (k : ℕ) : Op := ∑ i ∈ Finset.range k, aDag (2 * i) * aAnn (2 * i + 1)
/-- `S₋ = Σᵢ a†_{iβ} a_{iα}` -/
noncomputable def SmOp (k : ℕ) : Op := ∑ i ∈ Finset.range k, aDag (2 * i + 1) * aAnn (2 * i)
/-- `S_x = (S₊ + S₋)/2` -/
noncomputable def SxOp (k : ℕ) : Op := (1 / 2 : ℂ) • (SpOp k + SmOp k)
/-- `S_y = (S₊ - S₋)/(2i)` -/
noncomputable def SyOp (k : ℕ) : Op := (1 / (2 * Complex.I) : ℂ) • (SpOp k - SmOp k)

/-! ### algebra -/

theorem num_apply (p : ℕ) (ψ : St) (I : ℕ) : (aDag p * aAnn p) ψ I = (if I.testBit p then 1 else 0) * ψ I := by
  rw [Module.End.mul_apply, ladder_apply, ladder_apply, testBit_flipBit, if_pos rfl, flipBit_flipBit]
  have hf : fsign (flipBit I p) p = fsign I p := by
    unfold fsign nBelow
    congr 1
    apply List.countP_congr
    intro x hx
    have := List.mem_range.1 hx
    rw [testBit_flipBit, if_neg (by omega)]
  have hs : fsign I p * fsign I p = 1 := by unfold fsign; rw [← pow_add, ← two_mul, pow_mul]; simp
  cases h : I.testBit p
  · simp
  · simp only [if_true, Bool.not_true]; rw [hf, ← mul_assoc, hs]

theorem SzOp_eq (k : ℕ) : SzOp k = ∑ i ∈ Finset.range k, ((0.5 : ℂ) • (aDag (2 * i) * aAnn (2 * i)) + (-0.5 : ℂ) • (aDag (2 * i + 1) * aAnn (2 * i + 1))) := by
  apply Op.ext'; intro ψ I
  rw [LinearMap.sum_apply, Finset.sum_apply]
  change (∑ i ∈ Finset.range k, _ : ℂ) * ψ I = _
  rw [Finset.sum_mul]
  apply Finset.sum_congr rfl
  intro i _
  rw [LinearMap.add_apply, LinearMap.smul_apply, LinearMap.smul_apply, Pi.add_apply, Pi.smul_apply, Pi.smul_apply, num_apply, num_apply, smul_eq_mul, smul_eq_mul]
  ring

theorem ring_pair_comm {R : Type*} [Ring R] {a b c d : R} (e1 : b * c = -(c * b)) (e2 : a * c = -(c * a))
    (e3 : b * d = -(d * b)) (e4 : a * d = -(d * a)) : (a * b) * (c * d) = (c * d) * (a * b) := by
  calc (a * b) * (c * d) = a * (b * c) * d := by simp only [mul_assoc]
    _ = -((a * c) * (b * d)) := by rw [e1]; simp only [mul_assoc, mul_neg, neg_mul]
    _ = -(c * (a * d) * b) := by rw [e2, e3]; simp only [mul_assoc, mul_neg, neg_mul, neg_neg]
    _ = _ := by rw [e4]; simp only [mul_assoc, mul_neg, neg_mul, neg_neg]

theorem ring_neg_neg {R : Type*} [Ring R] (a b : R) : -a * -b = a * b := neg_mul_neg a b

/-- even products on disjoint orbitals commute -/
theorem ladder_pair_comm {b1 b2 b3 b4 : Bool} {p q r s : ℕ} (h1 : p ≠ r) (h2 : p ≠ s) (h3 : q ≠ r) (h4 : q ≠ s) :
    (ladder b1 p * ladder b2 q) * (ladder b3 r * ladder b4 s) = (ladder b3 r * ladder b4 s) * (ladder b1 p * ladder b2 q) := by
  have e1 := ladder_anticomm_ne b2 b3 h3
  have e2 := ladder_anticomm_ne b1 b3 h1
  have e3 := ladder_anticomm_ne b2 b4 h4
  have e4 := ladder_anticomm_ne b1 b4 h2
  exact ring_pair_comm e1 e2 e3 e4

/-- one orbital: `[a†_p a_q, a†_q a_p] = n_p - n_q` -/
theorem pair_self {p q : ℕ} (h : p ≠ q) :
    (aDag p * aAnn q) * (aDag q * aAnn p) - (aDag q * aAnn p) * (aDag p * aAnn q) = aDag p * aAnn p - aDag q * aAnn q := by
  have e1 : aAnn q * aDag q = 1 - aDag q * aAnn q := by have := ladder_anticomm_self true q; simp at this; rw [eq_sub_iff_add_eq, add_comm]; exact this
  have e2 : aAnn p * aDag p = 1 - aDag p * aAnn p := by have := ladder_anticomm_self true p; simp at this; rw [eq_sub_iff_add_eq, add_comm]; exact this
  have c : aDag p * (aDag q * aAnn q) * aAnn p = aDag q * (aDag p * aAnn p) * aAnn q := by
    have a1 := ladder_anticomm_ne true true h
    have a2 := ladder_anticomm_ne false false h
    have a3 : aAnn q * aAnn p = -(aAnn p * aAnn q) := ladder_anticomm_ne false false h.symm
    calc _ = (aDag p * aDag q) * (aAnn q * aAnn p) := by noncomm_ring
      _ = (aDag q * aDag p) * (aAnn p * aAnn q) := by rw [show aDag p * aDag q = -(aDag q * aDag p) from a1, a3]; exact ring_neg_neg _ _
      _ = _ := by noncomm_ring
  calc _ = aDag p * (aAnn q * aDag q) * aAnn p - aDag q * (aAnn p * aDag p) * aAnn q := by noncomm_ring
    _ = aDag p * aAnn p - aDag q * aAnn q - (aDag p * (aDag q * aAnn q) * aAnn p - aDag q * (aDag p * aAnn p) * aAnn q) := by rw [e1, e2]; simp only [mul_sub, sub_mul, mul_one]; abel
    _ = _ := by rw [c]; simp

/-- `[S₊, S₋] = 2 S_z` -/
theorem spin_commutator (k : ℕ) : SpOp k * SmOp k - SmOp k * SpOp k = (2 : ℂ) • SzOp k := by
  rw [SzOp_eq]
  unfold SpOp SmOp
  rw [Finset.sum_mul_sum, Finset.sum_mul_sum, Finset.sum_comm (s := Finset.range k) (t := Finset.range k) (f := fun i j => aDag (2 * i + 1) * aAnn (2 * i) * (aDag (2 * j) * aAnn (2 * j + 1))),
    ← Finset.sum_sub_distrib, Finset.smul_sum]
  apply Finset.sum_congr rfl
  intro i hi
  rw [← Finset.sum_sub_distrib, Finset.sum_eq_single i]
  · rw [pair_self (by omega), smul_add, smul_smul, smul_smul]; norm_num; rw [sub_eq_add_neg]
  · intro j _ hj
    rw [ladder_pair_comm (by omega) (by omega) (by omega) (by omega), sub_self]
  · intro h; exact absurd hi h

/-- `S₋S₊ + S_z + S_z² = S_x² + S_y² + S_z²` -/
theorem spin_squared_identity (k : ℕ) : SmOp k * SpOp k + SzOp k + SzOp k * SzOp k = SxOp k * SxOp k + SyOp k * SyOp k + SzOp k * SzOp k := by
  have h := spin_commutator k
  have hz : SzOp k = (1 / 2 : ℂ) • (SpOp k * SmOp k - SmOp k * SpOp k) := by rw [h, smul_smul]; norm_num
  have hI : (1 / (2 * Complex.I) : ℂ) * (1 / (2 * Complex.I)) = -(1 / 4) := by
    rw [div_mul_div_comm, show 2 * Complex.I * (2 * Complex.I) = 4 * (Complex.I * Complex.I) by ring, Complex.I_mul_I]; norm_num
  congr 1
  unfold SxOp SyOp
  rw [hz]
  simp only [smul_mul_smul_comm, hI]
  generalize SpOp k = P
  generalize SmOp k = M
  simp only [add_mul, mul_add, sub_mul, mul_sub, smul_add, smul_sub]
  module

/-! ### the code -/

theorem fold_flat (l : List ℕ) (f : ℕ → SQOperator) (g : SQOperator → ℕ → SQOperator) (h : ∀ A i, g A i = A ++ f i) (A : SQOperator) :
    l.foldl g A = A ++ l.flatMap f := by
  induction l generalizing A with
  | nil => simp
  | cons i l ih => rw [List.foldl_cons, ih, h, List.flatMap_cons, List.append_assoc]

theorem op_flat (k : ℕ) (f : ℕ → SQOperator) : SQOperator.op ((List.range k).flatMap f) = ∑ i ∈ Finset.range k, SQOperator.op (f i) := by
  induction k with
  | zero => simp [SQOperator.op]
  | succ k ih =>
    rw [List.range_succ, List.flatMap_append, Finset.sum_range_succ, ← ih]
    simp [SQOperator.op]

theorem spin_jw (o : DescSort) (A : SQOperator) (h : ∀ t ∈ A, ∃ p q, t.2 = ([p], [q]) ∧ Lat 1 t.1) :
    ∃ Q, (do return (← A.jwTransform o false).1 : Except Exc QubitOperator) = .ok Q ∧ Q.opLR = SQOperator.op A ∧ Q.op = SQOperator.op A ∧
      (∀ t ∈ Q, t.2.Canonical) ∧ (∀ t ∈ Q, Lat 3 t.1) ∧ Q.simplify = .ok Q := by
  obtain ⟨Q, R, e1, _, e3, e4, e5, e6⟩ := C36_exact_dyadic_partial o A false (by
    intro t ht; obtain ⟨p, q, e, _⟩ := h t ht; rw [e]; simp) 1 3 (by omega) (by
    intro t ht; obtain ⟨p, q, e, _⟩ := h t ht; rw [e]; simp) (fun t ht => (h t ht).choose_spec.choose_spec.2) (by omega)
  rw [if_neg (by simp)] at e4
  have hcan : Q.op = Q.opLR := by
    apply op_eq_opLR_of_distinct (fun t ht => canonical_api (e3 t ht))
    intro t ht
    exact (e3 t ht).sorted.imp (fun h => Nat.ne_of_lt h)
  exact ⟨Q, by rw [e1]; rfl, e4, hcan.trans e4, e3, e6, e5⟩

theorem lat_half : Lat 1 (0.5 : ℂ) := ⟨1, 0, by norm_num⟩
theorem lat_neg_half : Lat 1 (-0.5 : ℂ) := ⟨-1, 0, by norm_num⟩
theorem lat_one : Lat 1 (1 : ℂ) := ⟨2, 0, by norm_num⟩

theorem sz_core (o : DescSort) (n : ℕ) : ∃ Q, totalSpinZ o n = .ok Q ∧ Q.opLR = SzOp ((n + 1) / 2) ∧ Q.op = SzOp ((n + 1) / 2) ∧
    (∀ t ∈ Q, t.2.Canonical) ∧ (∀ t ∈ Q, Lat 3 t.1) ∧ Q.simplify = .ok Q := by
  have e : (evens n).foldl (fun (A : SQOperator) i => (A.addTerm 0.5 [i] [i]).addTerm (-0.5) [i + 1] [i + 1]) [] =
      (List.range ((n + 1) / 2)).flatMap fun i => [(0.5, [2 * i], [2 * i]), (-0.5, [2 * i + 1], [2 * i + 1])] := by
    rw [fold_flat _ (fun i => [(0.5, [i], [i]), (-0.5, [i + 1], [i + 1])]) _ (by intro A i; simp [SQOperator.addTerm])]
    simp [evens, List.flatMap_map]
  unfold totalSpinZ
  simp only [e]
  have hop : SQOperator.op ((List.range ((n + 1) / 2)).flatMap fun i => [(0.5, [2 * i], [2 * i]), (-0.5, [2 * i + 1], [2 * i + 1])]) = SzOp ((n + 1) / 2) := by
    rw [op_flat, SzOp_eq]
    apply Finset.sum_congr rfl; intro i _
    simp [SQOperator.op, fermiString]
  rw [← hop]
  refine spin_jw o _ ?_
  intro t ht
  obtain ⟨i, _, ht⟩ := List.mem_flatMap.1 ht
  simp only [List.mem_cons, List.not_mem_nil, or_false] at ht
  rcases ht with rfl | rfl
  · exact ⟨_, _, rfl, lat_half⟩
  · exact ⟨_, _, rfl, lat_neg_half⟩

theorem sm_core (o : DescSort) (n : ℕ) : ∃ Q, totalSpinLowering o n = .ok Q ∧ Q.opLR = SmOp ((n + 1) / 2) ∧ Q.op = SmOp ((n + 1) / 2) ∧
    (∀ t ∈ Q, t.2.Canonical) ∧ (∀ t ∈ Q, Lat 3 t.1) ∧ Q.simplify = .ok Q := by
  have e : (evens n).foldl (fun (A : SQOperator) i => A.addTerm 1 [i + 1] [i]) [] =
      (List.range ((n + 1) / 2)).flatMap fun i => [(1, [2 * i + 1], [2 * i])] := by
    rw [fold_flat _ (fun i => [(1, [i + 1], [i])]) _ (by intro A i; simp [SQOperator.addTerm])]
    simp [evens, List.flatMap_map]
  unfold totalSpinLowering
  simp only [e]
  have hop : SQOperator.op ((List.range ((n + 1) / 2)).flatMap fun i => [(1, [2 * i + 1], [2 * i])]) = SmOp ((n + 1) / 2) := by
    rw [op_flat]; unfold SmOp
    apply Finset.sum_congr rfl; intro i _
    simp [SQOperator.op, fermiString]
  rw [← hop]
  refine spin_jw o _ ?_
  intro t ht
  obtain ⟨i, _, ht⟩ := List.mem_flatMap.1 ht
  simp only [List.mem_cons, List.not_mem_nil, or_false] at ht
  subst ht
  exact ⟨_, _, rfl, lat_one⟩

theorem sp_core (o : DescSort) (n : ℕ) : ∃ Q, totalSpinRaising o n = .ok Q ∧ Q.opLR = SpOp ((n + 1) / 2) ∧ Q.op = SpOp ((n + 1) / 2) ∧
    (∀ t ∈ Q, t.2.Canonical) ∧ (∀ t ∈ Q, Lat 3 t.1) ∧ Q.simplify = .ok Q := by
  have e : (evens n).foldl (fun (A : SQOperator) i => A.addTerm 1 [i] [i + 1]) [] =
      (List.range ((n + 1) / 2)).flatMap fun i => [(1, [2 * i], [2 * i + 1])] := by
    rw [fold_flat _ (fun i => [(1, [i], [i + 1])]) _ (by intro A i; simp [SQOperator.addTerm])]
    simp [evens, List.flatMap_map]
  unfold totalSpinRaising
  simp only [e]
  have hop : SQOperator.op ((List.range ((n + 1) / 2)).flatMap fun i => [(1, [2 * i], [2 * i + 1])]) = SpOp ((n + 1) / 2) := by
    rw [op_flat]; unfold SpOp
    apply Finset.sum_congr rfl; intro i _
    simp [SQOperator.op, fermiString]
  rw [← hop]
  refine spin_jw o _ ?_
  intro t ht
  obtain ⟨i, _, ht⟩ := List.mem_flatMap.1 ht
  simp only [List.mem_cons, List.not_mem_nil, or_false] at ht
  subst ht
  exact ⟨_, _, rfl, lat_one⟩

/-- C62: `total_spin_z(n)` is exactly `S_z` of the `⌈n/2⌉` spatial orbitals. -/
theorem C62_spin_z (o : DescSort) (n : ℕ) : ∃ Q, totalSpinZ o n = .ok Q ∧ Q.op = SzOp ((n + 1) / 2) := by
  obtain ⟨Q, h1, _, h2, _⟩ := sz_core o n; exact ⟨Q, h1, h2⟩
/-- C62: `total_spin_raising(n)` is exactly `S₊`. -/
theorem C62_raising (o : DescSort) (n : ℕ) : ∃ Q, totalSpinRaising o n = .ok Q ∧ Q.op = SpOp ((n + 1) / 2) := by
  obtain ⟨Q, h1, _, h2, _⟩ := sp_core o n; exact ⟨Q, h1, h2⟩
/-- C62: `total_spin_lowering(n)` is exactly `S₋`. -/
theorem C62_lowering (o : DescSort) (n : ℕ) : ∃ Q, totalSpinLowering o n = .ok Q ∧ Q.op = SmOp ((n + 1) / 2) := by
  obtain ⟨Q, h1, _, h2, _⟩ := sm_core o n; exact ⟨Q, h1, h2⟩

/-- what `total_spin_squared(n)` returns: a simplified operator -/
theorem s2_core (o : DescSort) (n : ℕ) : ∃ Q, totalSpinSquared o n = .ok Q ∧
    Q.opLR = SxOp ((n + 1) / 2) * SxOp ((n + 1) / 2) + SyOp ((n + 1) / 2) * SyOp ((n + 1) / 2) + SzOp ((n + 1) / 2) * SzOp ((n + 1) / 2) ∧
    Q.op = Q.opLR ∧ Q.Normal ∧ (∀ t ∈ Q, Lat 6 t.1) ∧ ∃ F : QubitOperator, F.simplify = .ok Q := by
  obtain ⟨Z, z1, z2, _, z4, z5, -⟩ := sz_core o n
  obtain ⟨M, m1, m2, _, m4, m5, -⟩ := sm_core o n
  obtain ⟨P, p1, p2, _, p4, p5, -⟩ := sp_core o n
  have pc : ∀ {A : QubitOperator}, (∀ t ∈ A, t.2.Canonical) → ∀ t ∈ A, PauliCircuit t.2 := fun h t ht g hg => (h t ht).pauli g hg
  obtain ⟨A, a1, a2, a3, a4⟩ := product_lat (pc m4) (pc p4) m5 p5 (by omega)
  obtain ⟨B, b1, b2, b3, b4⟩ := product_lat (pc z4) (pc z4) z5 z5 (by omega)
  have hall : ∀ t ∈ A ++ Z ++ B, PauliCircuit t.2 ∧ Lat 6 t.1 := by
    intro t ht
    rcases List.mem_append.1 ht with ht | ht
    · rcases List.mem_append.1 ht with ht | ht
      · exact ⟨a3 t ht, a4 t ht⟩
      · exact ⟨pc z4 t ht, (z5 t ht).mono (by omega)⟩
    · exact ⟨b3 t ht, b4 t ht⟩
  obtain ⟨R, r1, r2, r3, r4⟩ := QubitOperator.simplify_lat (fun t ht => (hall t ht).1) (fun t ht => (hall t ht).2) (by omega)
  refine ⟨R, ?_, ?_, ?_, r3, r4, _, r1⟩
  · unfold totalSpinSquared
    simp only [z1, m1, p1, except_ok_bind, addOp_eq, List.nil_append, a1, b1, r1]
  · rw [r2, opLR_app, opLR_app, a2, b2, z2, m2, p2, spin_squared_identity]
  · apply op_eq_opLR_of_distinct (fun t ht => canonical_api (r3.canonical t ht))
    intro t ht
    exact (r3.canonical t ht).sorted.imp (fun h => Nat.ne_of_lt h)

/-- C62: `total_spin_squared(n)` is exactly `S_x² + S_y² + S_z²`. -/
theorem C62_spin_squared (o : DescSort) (n : ℕ) : ∃ Q, totalSpinSquared o n = .ok Q ∧
    Q.op = SxOp ((n + 1) / 2) * SxOp ((n + 1) / 2) + SyOp ((n + 1) / 2) * SyOp ((n + 1) / 2) + SzOp ((n + 1) / 2) * SzOp ((n + 1) / 2) := by
  obtain ⟨Q, h1, h2, h3, _⟩ := s2_core o n
  exact ⟨Q, h1, h3.trans h2⟩

/-- a concrete case: on two spatial orbitals a determinant with only the first alpha orbital occupied has `S_z = 1/2`,
with only the first beta one `-1/2` -/
example (ψ : St) : SzOp 2 ψ 1 = 1 / 2 * ψ 1 ∧ SzOp 2 ψ 2 = -1 / 2 * ψ 2 := by
  constructor
  · change (∑ i ∈ Finset.range 2, _ : ℂ) * _ = _
    rw [Finset.sum_range_succ, Finset.sum_range_one]
    simp [Nat.testBit]
  · change (∑ i ∈ Finset.range 2, _ : ℂ) * _ = _
    rw [Finset.sum_range_succ, Finset.sum_range_one]
    simp [Nat.testBit]

end QF
