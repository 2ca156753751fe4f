import Verif.Props.GSDPool
import Verif.Props.Spin

/-!
C64: the spin-adapted singles and doubles pool.
-/
namespace QF
namespace SQOpPool
open SQOperator

/-! ### `simplify` with coefficients that are integer multiples of one number -/

def Mul (w : ℝ) (c : ℂ) : Prop := ∃ m : ℤ, c = m * w

theorem Mul.add {w : ℝ} {c d : ℂ} : Mul w c → Mul w d → Mul w (c + d) := by
  rintro ⟨m, rfl⟩ ⟨n, rfl⟩; exact ⟨m + n, by push_cast; ring⟩
theorem Mul.neg {w : ℝ} {c : ℂ} : Mul w c → Mul w (-c) := by
  rintro ⟨m, rfl⟩; exact ⟨-m, by push_cast; ring⟩
theorem Mul.eq_zero {w : ℝ} {c : ℂ} (h : Mul w c) (hw : 1e-12 < |w|) (hc : ‖c‖ ≤ 1e-12) : c = 0 := by
  obtain ⟨m, rfl⟩ := h
  by_cases hm : m = 0
  · simp [hm]
  · exfalso
    rw [norm_mul, Complex.norm_intCast, Complex.norm_real, Real.norm_eq_abs] at hc
    have h1 : (1 : ℝ) ≤ |(m : ℝ)| := by
      have := Int.one_le_abs hm
      exact_mod_cast this
    nlinarith [abs_nonneg w]

theorem simplify_scaled (o : DescSort) (A R : SQOperator) (hR : simplify o A = .ok R) {w : ℝ} (hw : 1e-12 < |w|) (hz : ∀ t ∈ A, Mul w t.1) :
    SQOperator.op R = SQOperator.op A := by
  obtain ⟨A', e, h⟩ := SQOperator.canonicalOrder_ok o A
  rw [simplify_eq o A A' e] at hR; cases hR
  have hA' : ∀ t ∈ A', Mul w t.1 := by
    intro t ht
    obtain ⟨x, hx, hs⟩ := forall2_mem_right h ht
    rcases hs.coef with e | e
    · rw [e]; exact hz x hx
    · rw [e]; exact (hz x hx).neg
  have hcf : ∀ s, Mul w (coefS A' s) := by
    intro s
    classical
    unfold coefS
    clear h e
    induction A' with
    | nil => exact ⟨0, by simp⟩
    | cons t A ih =>
      rw [List.map_cons, List.sum_cons]
      apply Mul.add _ (ih (fun t ht => hA' t (by simp [ht])))
      split_ifs
      · simpa using hA' t (by simp)
      · exact ⟨0, by simp⟩
  rw [← canonStep_sum h]
  have h3 := (SQOperator.buildMap_facts A').2.2 (fun k => fermiString k.1 k.2)
  unfold SQOperator.op
  rw [← h3, filter_split_sq (fun k => fermiString k.1 k.2) _ (fun e => decide (‖e.2‖ > 1e-12)), List.map_map]
  have : (((SQOperator.buildMap A').filter fun e => !decide (‖e.2‖ > 1e-12)).map fun e => e.2 • fermiString e.1.1 e.1.2).sum = 0 := by
    apply List.sum_eq_zero
    intro x hx
    obtain ⟨e, he, rfl⟩ := List.mem_map.1 hx
    obtain ⟨g1, g2⟩ := List.mem_filter.1 he
    have : e.2 = 0 := Mul.eq_zero (w := w) (by rw [buildMap_value g1]; exact hcf _) hw (by simpa using g2)
    rw [this, zero_smul]
  rw [this, add_zero]
  rfl

/-- an operator that is in normal form up to the order of its terms keeps its terms -/
theorem simplify_perm (o : DescSort) (A : SQOperator) (hA : ∀ t ∈ A, SDesc t.2) (hn : (A.map Prod.snd).Nodup) (hc : ∀ t ∈ A, 1e-12 < ‖t.1‖) :
    ∃ R, simplify o A = .ok R ∧ R.Perm A := by
  have hp := List.mergeSort_perm A (fun a b => !klt b.2 a.2)
  refine ⟨_, simplify_target o A (A.mergeSort fun a b => !klt b.2 a.2) (fun t ht => ⟨sdesc_nodup (hA t ht).1, sdesc_nodup (hA t ht).2⟩)
    (fun t ht => hA t (hp.mem_iff.1 ht)) ?_ (fun t ht => hc t (hp.mem_iff.1 ht)) ?_, hp⟩
  · have h1 := List.pairwise_mergeSort (le := fun a b : SQTerm => !klt b.2 a.2) (by
      intro a b c h1 h2
      simp only [Bool.not_eq_true', ← Bool.not_eq_true] at h1 h2 ⊢
      intro h3
      by_cases h4 : klt a.2 b.2 = true
      · exact h2 (klt_trans h3 h4)
      · have := klt_eq h1 h4
        rw [this] at h2
        exact h2 h3) (by
      intro a b
      simp only [Bool.or_eq_true, Bool.not_eq_true', ← Bool.not_eq_true]
      by_contra h
      push Not at h
      exact klt_irrefl _ (klt_trans h.1 h.2)) A
    have h2 : (A.mergeSort fun a b => !klt b.2 a.2).Pairwise fun a b => a.2 ≠ b.2 := by
      have := (hp.map Prod.snd).nodup_iff.2 hn
      rwa [List.nodup_iff_pairwise_ne, List.pairwise_map] at this
    apply (h1.and h2).imp
    rintro a b ⟨h, h'⟩
    simp only [Bool.not_eq_true', ← Bool.not_eq_true] at h
    by_contra hk
    exact h' (klt_eq hk h)
  · unfold SQOperator.op
    exact (hp.map _).sum_eq

/-! ### spin operators and ladder operators -/

theorem ladder_anticomm_same (b : Bool) (p q : ℕ) : ladder b p * ladder b q = -(ladder b q * ladder b p) := by
  by_cases h : p = q
  · subst h; rw [ladder_sq]; apply Op.ext'; intro ψ I; simp
  · exact ladder_anticomm_ne b b h

theorem ring_E_dag {R : Type*} [Ring R] {x y z d : R} (h1 : y * z = d - z * y) (h2 : x * z = -(z * x)) : x * y * z = z * (x * y) + x * d := by
  calc x * y * z = x * (y * z) := by rw [mul_assoc]
    _ = x * d - x * z * y := by rw [h1, mul_sub, mul_assoc]
    _ = _ := by rw [h2, neg_mul, mul_assoc]; abel

theorem ring_E_ann {R : Type*} [Ring R] {x y z d : R} (h1 : x * z = d - z * x) (h2 : y * z = -(z * y)) : x * y * z = z * (x * y) + -(d * y) := by
  calc x * y * z = x * (y * z) := by rw [mul_assoc]
    _ = -(x * z * y) := by rw [h2, mul_neg, mul_assoc]
    _ = _ := by rw [h1, sub_mul, mul_assoc]; abel

theorem E_dag (x y z : ℕ) : aDag x * aAnn y * aDag z = aDag z * (aDag x * aAnn y) + if y = z then aDag x else 0 := by
  have h1 : aAnn y * aDag z = (if y = z then (1 : Op) else 0) - aDag z * aAnn y := by
    by_cases h : y = z
    · subst h; rw [if_pos rfl]
      have := ladder_anticomm_self true y; simp at this; rw [eq_sub_iff_add_eq, add_comm]; exact this
    · rw [if_neg h, zero_sub]; exact ladder_anticomm_ne false true h
  have := ring_E_dag h1 (ladder_anticomm_same true x z)
  rw [this]
  split
  · rw [mul_one]
  · rw [mul_zero]

theorem E_ann (x y z : ℕ) : aDag x * aAnn y * aAnn z = aAnn z * (aDag x * aAnn y) + -(if x = z then aAnn y else 0) := by
  have h1 : aDag x * aAnn z = (if x = z then (1 : Op) else 0) - aAnn z * aDag x := by
    by_cases h : x = z
    · subst h; rw [if_pos rfl]
      have := ladder_anticomm_self true x; simp at this; rw [eq_sub_iff_add_eq]; exact this
    · rw [if_neg h, zero_sub]; exact ladder_anticomm_ne true false h
  have := ring_E_ann h1 (ladder_anticomm_same false y z)
  rw [this]
  split
  · rw [one_mul]
  · rw [zero_mul]

/-- `[Σ_i f(i)† g(i), z†]` and `[Σ_i f(i)† g(i), z]` -/
theorem sumE_dag (f g : ℕ → ℕ) (k z : ℕ) : (∑ i ∈ Finset.range k, aDag (f i) * aAnn (g i)) * aDag z =
    aDag z * (∑ i ∈ Finset.range k, aDag (f i) * aAnn (g i)) + ∑ i ∈ Finset.range k, if g i = z then aDag (f i) else 0 := by
  rw [Finset.sum_mul, Finset.mul_sum, ← Finset.sum_add_distrib]
  exact Finset.sum_congr rfl fun i _ => E_dag _ _ _

theorem sumE_ann (f g : ℕ → ℕ) (k z : ℕ) : (∑ i ∈ Finset.range k, aDag (f i) * aAnn (g i)) * aAnn z =
    aAnn z * (∑ i ∈ Finset.range k, aDag (f i) * aAnn (g i)) + -∑ i ∈ Finset.range k, if f i = z then aAnn (g i) else 0 := by
  rw [Finset.sum_mul, Finset.mul_sum, ← Finset.sum_neg_distrib, ← Finset.sum_add_distrib]
  exact Finset.sum_congr rfl fun i _ => E_ann _ _ _

/-- how a spin ladder operator `Q` that turns spin 2 into spin 1 acts on the ladder operators of one spatial orbital -/
structure Shift (Q : Op) (D1 D2 A1 A2 : Op) : Prop where
  d1 : Q * D1 = D1 * Q + 0
  d2 : Q * D2 = D2 * Q + D1
  a1 : Q * A1 = A1 * Q + -A2
  a2 : Q * A2 = A2 * Q + 0

theorem shift_plus {k p : ℕ} (hp : p < k) : Shift (SpOp k) (aDag (2 * p)) (aDag (2 * p + 1)) (aAnn (2 * p)) (aAnn (2 * p + 1)) := by
  unfold SpOp
  refine ⟨?_, ?_, ?_, ?_⟩
  · rw [sumE_dag]; congr 1; exact Finset.sum_eq_zero fun i _ => if_neg (by omega)
  · rw [sumE_dag]; congr 1
    rw [Finset.sum_eq_single p]
    · rw [if_pos rfl]
    · intro i _ h; exact if_neg (by omega)
    · intro h; exact absurd (Finset.mem_range.2 hp) h
  · rw [sumE_ann]; congr 2
    rw [Finset.sum_eq_single p]
    · rw [if_pos rfl]
    · intro i _ h; exact if_neg (by omega)
    · intro h; exact absurd (Finset.mem_range.2 hp) h
  · rw [sumE_ann]; congr 1
    rw [Finset.sum_eq_zero fun i _ => if_neg (by omega)]
    apply Op.ext'; intro ψ I; simp

theorem shift_minus {k p : ℕ} (hp : p < k) : Shift (SmOp k) (aDag (2 * p + 1)) (aDag (2 * p)) (aAnn (2 * p + 1)) (aAnn (2 * p)) := by
  unfold SmOp
  refine ⟨?_, ?_, ?_, ?_⟩
  · rw [sumE_dag]; congr 1; exact Finset.sum_eq_zero fun i _ => if_neg (by omega)
  · rw [sumE_dag]; congr 1
    rw [Finset.sum_eq_single p]
    · rw [if_pos rfl]
    · intro i _ h; exact if_neg (by omega)
    · intro h; exact absurd (Finset.mem_range.2 hp) h
  · rw [sumE_ann]; congr 2
    rw [Finset.sum_eq_single p]
    · rw [if_pos rfl]
    · intro i _ h; exact if_neg (by omega)
    · intro h; exact absurd (Finset.mem_range.2 hp) h
  · rw [sumE_ann]; congr 1
    rw [Finset.sum_eq_zero fun i _ => if_neg (by omega)]
    apply Op.ext'; intro ψ I; simp

theorem ring_deriv {R : Type*} [Ring R] {Q A B A' B' : R} (h1 : Q * A = A * Q + A') (h2 : Q * B = B * Q + B') : Q * (A * B) = A * B * Q + (A' * B + A * B') := by
  rw [← mul_assoc, h1, add_mul, mul_assoc, h2, mul_add, mul_assoc]; abel
theorem ring_deriv_add {R : Type*} [Ring R] {Q A B A' B' : R} (h1 : Q * A = A * Q + A') (h2 : Q * B = B * Q + B') : Q * (A + B) = (A + B) * Q + (A' + B') := by
  rw [mul_add, add_mul, h1, h2]; abel

/-- singlet single excitation -/
theorem single_comm {R : Type*} [Ring R] {Q D1 D2 A1 A2 : R} (hd1 : Q * D1 = D1 * Q + 0) (hd2 : Q * D2 = D2 * Q + D1) (ha1 : Q * A1 = A1 * Q + -A2)
    (ha2 : Q * A2 = A2 * Q + 0) : Q * (D1 * A1 + D2 * A2) = (D1 * A1 + D2 * A2) * Q := by
  have := ring_deriv_add (ring_deriv hd1 ha1) (ring_deriv hd2 ha2)
  rw [this]
  simp only [zero_mul, mul_zero, mul_neg, zero_add, add_zero, neg_add_cancel]

/-- triplet-triplet and singlet-singlet double excitations -/
theorem double_comm {R : Type*} [Ring R] {Q C1 C2 D1 D2 I1 I2 J1 J2 : R} (c1 : Q * C1 = C1 * Q + 0) (c2 : Q * C2 = C2 * Q + C1)
    (d1 : Q * D1 = D1 * Q + 0) (d2 : Q * D2 = D2 * Q + D1) (i1 : Q * I1 = I1 * Q + -I2) (i2 : Q * I2 = I2 * Q + 0) (j1 : Q * J1 = J1 * Q + -J2) (j2 : Q * J2 = J2 * Q + 0) :
    Q * (C1 * D1 * (I1 * J1) + C1 * D1 * (I1 * J1) + (C2 * D2 * (I2 * J2) + C2 * D2 * (I2 * J2)) + (C1 * D2 + C2 * D1) * (I1 * J2 + I2 * J1)) =
      (C1 * D1 * (I1 * J1) + C1 * D1 * (I1 * J1) + (C2 * D2 * (I2 * J2) + C2 * D2 * (I2 * J2)) + (C1 * D2 + C2 * D1) * (I1 * J2 + I2 * J1)) * Q ∧
    Q * ((C1 * D2 + -(C2 * D1)) * (I1 * J2 + -(I2 * J1))) = (C1 * D2 + -(C2 * D1)) * (I1 * J2 + -(I2 * J1)) * Q := by
  have neg : ∀ {A A' : R}, Q * A = A * Q + A' → Q * (-A) = -A * Q + -A' := by
    intro A A' h; rw [mul_neg, h, neg_mul, neg_add]
  constructor
  · have p := ring_deriv (ring_deriv c1 d1) (ring_deriv i1 j1)
    have m := ring_deriv (ring_deriv c2 d2) (ring_deriv i2 j2)
    have z := ring_deriv (ring_deriv_add (ring_deriv c1 d2) (ring_deriv c2 d1)) (ring_deriv_add (ring_deriv i1 j2) (ring_deriv i2 j1))
    have := ring_deriv_add (ring_deriv_add (ring_deriv_add p p) (ring_deriv_add m m)) z
    rw [this]
    simp only [zero_mul, mul_zero, zero_add, add_zero, mul_neg, neg_mul, mul_add, add_mul]
    noncomm_ring
  · have z := ring_deriv (ring_deriv_add (ring_deriv c1 d2) (neg (ring_deriv c2 d1))) (ring_deriv_add (ring_deriv i1 j2) (neg (ring_deriv i2 j1)))
    rw [z]
    noncomm_ring

/-! ### the operators of the pool -/

/-- what C64 says about an operator on `k` spatial orbitals -/
structure SpinAdapted (k : ℕ) (A : Op) : Prop where
  anti : AntiHermitian (2 * k) A
  num : Commute (NumOp (2 * k)) A
  sz : Commute (SpinZ (2 * k)) A
  sp : Commute (SpOp k) A
  sm : Commute (SmOp k) A

theorem antiH_smul {n : ℕ} {A : Op} (h : AntiHermitian n A) (r : ℝ) : AntiHermitian n ((r : ℂ) • A) := by
  intro φ ψ
  rw [LinearMap.smul_apply, LinearMap.smul_apply, inner_smul_right', inner_smul_left', h, Complex.conj_ofReal]; ring
theorem antiH_add {n : ℕ} {A B : Op} (h : AntiHermitian n A) (h' : AntiHermitian n B) : AntiHermitian n (A + B) := by
  intro φ ψ
  rw [LinearMap.add_apply, LinearMap.add_apply, inner_add_right, inner_add_left, h, h']; ring

theorem comm_smul {A B : Op} (h : Commute A B) (z : ℂ) : Commute A (z • B) := by
  show A * (z • B) = (z • B) * A
  rw [mul_smul_comm, smul_mul_assoc, h.eq]

theorem SpinAdapted.smul {k : ℕ} {A : Op} (h : SpinAdapted k A) (r : ℝ) : SpinAdapted k ((r : ℂ) • A) :=
  ⟨antiH_smul h.anti r, comm_smul h.num _, comm_smul h.sz _, comm_smul h.sp _, comm_smul h.sm _⟩

theorem fermi11 (p q : ℕ) : fermiString [p] [q] = aDag p * aAnn q := by simp [fermiString]
theorem fermi22 (p q r s : ℕ) : fermiString [p, q] [r, s] = aDag p * aDag q * (aAnn r * aAnn s) := by simp [fermiString]

theorem fermi22_zero {p q r s : ℕ} (h : ¬ (p ≠ q ∧ r ≠ s)) : fermiString [p, q] [r, s] = 0 := by
  rw [fermi22]
  by_cases hp : p = q
  · subst hp; rw [ladder_sq, zero_mul]
  · have : r = s := by by_contra hr; exact h ⟨hp, hr⟩
    subst this; rw [ladder_sq, mul_zero]

theorem guardTerm_op (z : ℂ) (c0 c1 a0 a1 : ℕ) (t : SQOperator) :
    SQOperator.op (guardTerm z c0 c1 a0 a1 t) = SQOperator.op t + z • fermiString [c0, c1] [a0, a1] := by
  unfold guardTerm
  split
  · simp [SQOperator.op, SQOperator.addTerm]
  · rename_i h; rw [fermi22_zero h, smul_zero, add_zero]

theorem guardTerm_mul {w : ℝ} {z : ℂ} (hz : Mul w z) (c0 c1 a0 a1 : ℕ) {t : SQOperator} (ht : ∀ x ∈ t, Mul w x.1) :
    ∀ x ∈ guardTerm z c0 c1 a0 a1 t, Mul w x.1 := by
  unfold guardTerm
  split
  · intro x hx
    simp only [SQOperator.addTerm, List.mem_append, List.mem_singleton] at hx
    rcases hx with hx | rfl
    · exact ht x hx
    · exact hz
  · exact ht

/-- singlet single excitation, both parts -/
noncomputable def singleX (a i : ℕ) : Op := fermiString [2 * a] [2 * i] + fermiString [2 * a + 1] [2 * i + 1]
/-- triplet pairs -/
noncomputable def tripletX (a b i j : ℕ) : Op :=
  fermiString [2 * a, 2 * b] [2 * i, 2 * j] + fermiString [2 * a, 2 * b] [2 * i, 2 * j] +
  (fermiString [2 * a + 1, 2 * b + 1] [2 * i + 1, 2 * j + 1] + fermiString [2 * a + 1, 2 * b + 1] [2 * i + 1, 2 * j + 1]) +
  (fermiString [2 * a, 2 * b + 1] [2 * i, 2 * j + 1] + fermiString [2 * a, 2 * b + 1] [2 * i + 1, 2 * j] +
   (fermiString [2 * a + 1, 2 * b] [2 * i, 2 * j + 1] + fermiString [2 * a + 1, 2 * b] [2 * i + 1, 2 * j]))
/-- singlet pairs -/
noncomputable def singletX (a b i j : ℕ) : Op :=
  fermiString [2 * a, 2 * b + 1] [2 * i, 2 * j + 1] - fermiString [2 * a, 2 * b + 1] [2 * i + 1, 2 * j] -
   (fermiString [2 * a + 1, 2 * b] [2 * i, 2 * j + 1] - fermiString [2 * a + 1, 2 * b] [2 * i + 1, 2 * j])

theorem shift_single {Q : Op} {a i : ℕ} {f g : ℕ → ℕ} (ha : Shift Q (aDag (f a)) (aDag (g a)) (aAnn (f a)) (aAnn (g a)))
    (hi : Shift Q (aDag (f i)) (aDag (g i)) (aAnn (f i)) (aAnn (g i))) :
    Commute Q (fermiString [f a] [f i] + fermiString [g a] [g i]) := by
  rw [fermi11, fermi11]
  exact single_comm ha.d1 ha.d2 hi.a1 hi.a2

theorem singleX_comm {k a i : ℕ} (ha : a < k) (hi : i < k) : Commute (SpOp k) (singleX a i) ∧ Commute (SmOp k) (singleX a i) := by
  refine ⟨?_, ?_⟩
  · exact shift_single (f := fun p => 2 * p) (g := fun p => 2 * p + 1) (shift_plus ha) (shift_plus hi)
  · have := shift_single (f := fun p => 2 * p + 1) (g := fun p => 2 * p) (shift_minus ha) (shift_minus hi)
    unfold singleX
    rw [add_comm]; exact this

theorem shift_double {Q : Op} {a b i j : ℕ} {f g : ℕ → ℕ} (h : ∀ p ∈ [a, b, i, j], Shift Q (aDag (f p)) (aDag (g p)) (aAnn (f p)) (aAnn (g p))) :
    Commute Q (fermiString [f a, f b] [f i, f j] + fermiString [f a, f b] [f i, f j] + (fermiString [g a, g b] [g i, g j] + fermiString [g a, g b] [g i, g j]) +
      (fermiString [f a, g b] [f i, g j] + fermiString [f a, g b] [g i, f j] + (fermiString [g a, f b] [f i, g j] + fermiString [g a, f b] [g i, f j]))) ∧
    Commute Q (fermiString [f a, g b] [f i, g j] - fermiString [f a, g b] [g i, f j] - (fermiString [g a, f b] [f i, g j] - fermiString [g a, f b] [g i, f j])) := by
  have ha := h a (by simp); have hb := h b (by simp); have hi := h i (by simp); have hj := h j (by simp)
  obtain ⟨h1, h2⟩ := double_comm ha.d1 ha.d2 hb.d1 hb.d2 hi.a1 hi.a2 hj.a1 hj.a2
  simp only [fermi22]
  constructor
  · have G : ∀ {R : Type} [Ring R] (x y u v : R), x * u + x * v + (y * u + y * v) = (x + y) * (u + v) := by
      intro R _ x y u v; rw [add_mul, mul_add, mul_add]
    have e := G (aDag (f a) * aDag (g b)) (aDag (g a) * aDag (f b)) (aAnn (f i) * aAnn (g j)) (aAnn (g i) * aAnn (f j))
    rw [← e] at h1
    exact h1
  · have e : aDag (f a) * aDag (g b) * (aAnn (f i) * aAnn (g j)) - aDag (f a) * aDag (g b) * (aAnn (g i) * aAnn (f j)) -
        (aDag (g a) * aDag (f b) * (aAnn (f i) * aAnn (g j)) - aDag (g a) * aDag (f b) * (aAnn (g i) * aAnn (f j))) =
        (aDag (f a) * aDag (g b) + -(aDag (g a) * aDag (f b))) * (aAnn (f i) * aAnn (g j) + -(aAnn (g i) * aAnn (f j))) := by
      have g : ∀ {R : Type} [Ring R] (x y u v : R), x * u - x * v - (y * u - y * v) = (x + -y) * (u + -v) := by
        intro R _ x y u v; noncomm_ring
      exact g _ _ _ _
    rw [e]; exact h2

theorem tripletX_comm {k a b i j : ℕ} (h : ∀ p ∈ [a, b, i, j], p < k) : (Commute (SpOp k) (tripletX a b i j) ∧ Commute (SmOp k) (tripletX a b i j)) ∧
    Commute (SpOp k) (singletX a b i j) ∧ Commute (SmOp k) (singletX a b i j) := by
  obtain ⟨p1, p2⟩ := shift_double (f := fun p => 2 * p) (g := fun p => 2 * p + 1) (fun p hp => shift_plus (h p hp))
  obtain ⟨m1, m2⟩ := shift_double (f := fun p => 2 * p + 1) (g := fun p => 2 * p) (fun p hp => shift_minus (h p hp))
  refine ⟨⟨p1, ?_⟩, p2, ?_⟩
  · have e : tripletX a b i j = _ := rfl
    rw [e]
    convert m1 using 1
    unfold tripletX
    apply Op.ext'; intro ψ I; simp only [LinearMap.add_apply, Pi.add_apply]; ring
  · convert m2 using 1
    unfold singletX
    apply Op.ext'; intro ψ I; simp only [LinearMap.sub_apply, Pi.sub_apply]; ring

theorem _root_.QF.IsAdj.add {n : ℕ} {A B A' B' : Op} (h : IsAdj n A A') (h' : IsAdj n B B') : IsAdj n (A + B) (A' + B') := by
  intro φ ψ
  rw [LinearMap.add_apply, LinearMap.add_apply, inner_add_right, inner_add_left, h, h']
theorem _root_.QF.IsAdj.sub {n : ℕ} {A B A' B' : Op} (h : IsAdj n A A') (h' : IsAdj n B B') : IsAdj n (A - B) (A' - B') := by
  intro φ ψ
  rw [LinearMap.sub_apply, LinearMap.sub_apply, inner_sub_right, inner_sub_left, h, h']

theorem adj11 {k p q : ℕ} (hp : p < 2 * k) (hq : q < 2 * k) : IsAdj (2 * k) (fermiString [p] [q]) (fermiString [q] [p]) :=
  IsAdj.fermiString (by simpa using hp) (by simpa using hq)
theorem adj22 {k p q r s : ℕ} (h : ∀ x ∈ [p, q, r, s], x < 2 * k) : IsAdj (2 * k) (fermiString [p, q] [r, s]) (fermiString [s, r] [q, p]) :=
  IsAdj.fermiString (by intro x hx; exact h x (by simp at hx ⊢; tauto)) (by intro x hx; exact h x (by simp at hx ⊢; tauto))

theorem charge22 {k p q r s : ℕ} (h : ∀ x ∈ [p, q, r, s], x < 2 * k) (a b : ℂ)
    (hs : (if p % 2 = 0 then 1 else 0) + (if q % 2 = 0 then 1 else 0) = (if r % 2 = 0 then 1 else 0) + (if s % 2 = 0 then 1 else 0)) :
    Commute (chargeOp (fun p => if p % 2 = 0 then a else b) (2 * k)) (fermiString [p, q] [r, s]) := by
  apply charge_commute _ (by intro x hx; exact h x (by simp at hx ⊢; tauto)) (by intro x hx; exact h x (by simp at hx ⊢; tauto))
  simp only [List.map_cons, List.map_nil, List.sum_cons, List.sum_nil, add_zero]
  by_cases h1 : p % 2 = 0 <;> by_cases h2 : q % 2 = 0 <;> by_cases h3 : r % 2 = 0 <;> by_cases h4 : s % 2 = 0 <;> simp only [h1, h2, h3, h4, if_true, if_false] at hs ⊢ <;>
    first | omega | ring1

theorem numOp_spin (n : ℕ) : NumOp n = chargeOp (fun p => if p % 2 = 0 then 1 else 1) n := by simp [NumOp]

theorem single_adapted {k a i : ℕ} (ha : a < k) (hi : i < k) : SpinAdapted k (singleX a i - singleX i a) := by
  have c := singleX_comm ha hi
  have c' := singleX_comm hi ha
  have ch : ∀ x y : ℂ, Commute (chargeOp (fun p => if p % 2 = 0 then x else y) (2 * k)) (singleX a i - singleX i a) := by
    intro x y
    have g : ∀ p q, p < 2 * k → q < 2 * k → p % 2 = q % 2 → Commute (chargeOp (fun p => if p % 2 = 0 then x else y) (2 * k)) (fermiString [p] [q]) := by
      intro p q hp hq e
      apply charge_commute _ (by simpa using hp) (by simpa using hq)
      simp [e]
    unfold singleX
    exact ((g _ _ (by omega) (by omega) (by omega)).add_right (g _ _ (by omega) (by omega) (by omega))).sub_right
      ((g _ _ (by omega) (by omega) (by omega)).add_right (g _ _ (by omega) (by omega) (by omega)))
  refine ⟨?_, by rw [numOp_spin]; exact ch _ _, ch _ _, c.1.sub_right c'.1, c.2.sub_right c'.2⟩
  apply IsAdj.antiHermitian
  exact (adj11 (by omega) (by omega)).add (adj11 (by omega) (by omega))

theorem triplet_adapted {k a b i j : ℕ} (h : ∀ p ∈ [a, b, i, j], p < k) : SpinAdapted k (tripletX a b i j - tripletX j i b a) ∧
    SpinAdapted k (singletX a b i j - singletX j i b a) := by
  have h' : ∀ p ∈ [j, i, b, a], p < k := by intro p hp; exact h p (by simp at hp ⊢; tauto)
  have c := tripletX_comm h
  have c' := tripletX_comm h'
  have ha := h a (by simp); have hb := h b (by simp); have hi := h i (by simp); have hj := h j (by simp)
  have ch : ∀ (x y : ℂ) {a b i j : ℕ}, (∀ p ∈ [a, b, i, j], p < k) → Commute (chargeOp (fun p => if p % 2 = 0 then x else y) (2 * k)) (tripletX a b i j) ∧
      Commute (chargeOp (fun p => if p % 2 = 0 then x else y) (2 * k)) (singletX a b i j) := by
    intro x y a b i j h
    have ha := h a (by simp); have hb := h b (by simp); have hi := h i (by simp); have hj := h j (by simp)
    have g : ∀ s t u v : ℕ, s < 2 → t < 2 → u < 2 → v < 2 → s + t = u + v →
        Commute (chargeOp (fun p => if p % 2 = 0 then x else y) (2 * k)) (fermiString [2 * a + s, 2 * b + t] [2 * i + u, 2 * j + v]) := by
      intro s t u v hs ht hu hv e
      apply charge22
      · intro z hz; simp only [List.mem_cons, List.not_mem_nil, or_false] at hz; omega
      · interval_cases s <;> interval_cases t <;> interval_cases u <;> interval_cases v <;> simp at e ⊢
    have g0 := g 0 0 0 0 (by omega) (by omega) (by omega) (by omega) rfl
    have g1 := g 1 1 1 1 (by omega) (by omega) (by omega) (by omega) rfl
    have g2 := g 0 1 0 1 (by omega) (by omega) (by omega) (by omega) rfl
    have g3 := g 0 1 1 0 (by omega) (by omega) (by omega) (by omega) rfl
    have g4 := g 1 0 0 1 (by omega) (by omega) (by omega) (by omega) rfl
    have g5 := g 1 0 1 0 (by omega) (by omega) (by omega) (by omega) rfl
    exact ⟨((g0.add_right g0).add_right (g1.add_right g1)).add_right ((g2.add_right g3).add_right (g4.add_right g5)),
      (g2.sub_right g3).sub_right (g4.sub_right g5)⟩
  have m : ∀ s t u v : ℕ, s < 2 → t < 2 → u < 2 → v < 2 →
      IsAdj (2 * k) (fermiString [2 * a + s, 2 * b + t] [2 * i + u, 2 * j + v]) (fermiString [2 * j + v, 2 * i + u] [2 * b + t, 2 * a + s]) := by
    intro s t u v hs ht hu hv
    apply adj22
    intro z hz; simp only [List.mem_cons, List.not_mem_nil, or_false] at hz; omega
  have m0 := m 0 0 0 0 (by omega) (by omega) (by omega) (by omega)
  have m1 := m 1 1 1 1 (by omega) (by omega) (by omega) (by omega)
  have m2 := m 0 1 0 1 (by omega) (by omega) (by omega) (by omega)
  have m3 := m 0 1 1 0 (by omega) (by omega) (by omega) (by omega)
  have m4 := m 1 0 0 1 (by omega) (by omega) (by omega) (by omega)
  have m5 := m 1 0 1 0 (by omega) (by omega) (by omega) (by omega)
  refine ⟨⟨?_, by rw [numOp_spin]; exact (ch _ _ h).1.sub_right (ch _ _ h').1, (ch _ _ h).1.sub_right (ch _ _ h').1, c.1.1.sub_right c'.1.1, c.1.2.sub_right c'.1.2⟩,
    ⟨?_, by rw [numOp_spin]; exact (ch _ _ h).2.sub_right (ch _ _ h').2, (ch _ _ h).2.sub_right (ch _ _ h').2, c.2.1.sub_right c'.2.1, c.2.2.sub_right c'.2.2⟩⟩
  · apply IsAdj.antiHermitian
    have := ((m0.add m0).add (m1.add m1)).add ((m2.add m3).add (m4.add m5))
    convert this using 1
    all_goals
      unfold tripletX
      apply Op.ext'; intro ψ I; simp only [LinearMap.add_apply, Pi.add_apply, Nat.add_zero]; try ring
  · apply IsAdj.antiHermitian
    have := (m2.sub m3).sub (m4.sub m5)
    convert this using 1
    all_goals
      unfold singletX
      apply Op.ext'; intro ψ I; simp only [LinearMap.sub_apply, Pi.sub_apply, Nat.add_zero]; try ring

theorem saTriplet_op (a b i j : ℕ) : SQOperator.op (saTriplet (2 * i) (2 * i + 1) (2 * j) (2 * j + 1) (2 * a) (2 * a + 1) (2 * b) (2 * b + 1)) =
    ((1 / Real.sqrt 12 : ℝ) : ℂ) • (tripletX a b i j - tripletX j i b a) := by
  unfold saTriplet
  simp only [guardTerm_op]
  unfold tripletX
  apply Op.ext'; intro ψ I
  simp only [LinearMap.add_apply, Pi.add_apply, LinearMap.smul_apply, Pi.smul_apply, LinearMap.sub_apply, Pi.sub_apply, smul_eq_mul, SQOperator.op, List.map_nil, List.sum_nil, LinearMap.zero_apply, Pi.zero_apply]
  ring

theorem saSinglet_op (a b i j : ℕ) : SQOperator.op (saSinglet (2 * i) (2 * i + 1) (2 * j) (2 * j + 1) (2 * a) (2 * a + 1) (2 * b) (2 * b + 1)) =
    ((1 / 2 : ℝ) : ℂ) • (singletX a b i j - singletX j i b a) := by
  unfold saSinglet
  simp only [guardTerm_op]
  unfold singletX
  apply Op.ext'; intro ψ I
  simp only [LinearMap.add_apply, Pi.add_apply, LinearMap.smul_apply, Pi.smul_apply, LinearMap.sub_apply, Pi.sub_apply, smul_eq_mul, SQOperator.op, List.map_nil, List.sum_nil, LinearMap.zero_apply, Pi.zero_apply]
  push_cast
  ring

theorem saTriplet_mul (ia ib ja jb aa ab ba bb : ℕ) : ∀ t ∈ saTriplet ia ib ja jb aa ab ba bb, Mul (1 / Real.sqrt 12) t.1 := by
  have w1 : Mul (1 / Real.sqrt 12) ((1 / Real.sqrt 12 : ℝ) : ℂ) := ⟨1, by push_cast; ring⟩
  have w2 : Mul (1 / Real.sqrt 12) (2 * ((1 / Real.sqrt 12 : ℝ) : ℂ)) := ⟨2, by push_cast; ring⟩
  unfold saTriplet
  repeat' first | exact w1 | exact w2 | exact w1.neg | exact w2.neg | apply guardTerm_mul
  simp

theorem saSinglet_mul (ia ib ja jb aa ab ba bb : ℕ) : ∀ t ∈ saSinglet ia ib ja jb aa ab ba bb, Mul (1 / 2) t.1 := by
  have w1 : Mul (1 / 2) (1 / 2 : ℂ) := ⟨1, by push_cast; ring⟩
  unfold saSinglet
  repeat' first | exact w1 | exact w1.neg | apply guardTerm_mul
  simp

theorem sqrt12 : (1e-12 : ℝ) < |1 / Real.sqrt 12| := by
  have h : Real.sqrt 12 < 4 := by rw [Real.sqrt_lt' (by norm_num)]; norm_num
  have h0 : 0 < Real.sqrt 12 := Real.sqrt_pos.2 (by norm_num)
  rw [abs_of_pos (by positivity), lt_div_iff₀ h0]
  linarith

theorem op_multCoeffs (A : SQOperator) (z : ℂ) : SQOperator.op (A.multCoeffs z) = z • SQOperator.op A := (C35_edit A [] z [] []).2.2

/-- normalised: the squared moduli of the coefficients add up to 2 -/
def Normalised (A : SQOperator) : Prop := (A.map fun t => ‖t.1‖ ^ 2).sum = 2

theorem saNormalise_spec (t : SQOperator) : (SQOperator.op (saNormalise t) = ((Real.sqrt (2 / (t.map fun x => ‖x.1‖ ^ 2).sum) : ℝ) : ℂ) • SQOperator.op t) ∧
    ((∃ x ∈ t, x.1 ≠ 0) → Normalised (saNormalise t)) := by
  refine ⟨op_multCoeffs _ _, ?_⟩
  rintro ⟨x, hx, hne⟩
  set S := (t.map fun x => ‖x.1‖ ^ 2).sum with hS
  have hpos : 0 < S := by
    have h1 : ‖x.1‖ ^ 2 ≤ S := List.single_le_sum (by intro y hy; obtain ⟨z, _, rfl⟩ := List.mem_map.1 hy; positivity) _ (List.mem_map.2 ⟨x, hx, rfl⟩)
    have : 0 < ‖x.1‖ := norm_pos_iff.2 hne
    nlinarith
  unfold Normalised saNormalise SQOperator.multCoeffs
  rw [List.map_map, ← hS]
  have e : ∀ l : SQOperator, (l.map ((fun t : SQTerm => ‖t.1‖ ^ 2) ∘ fun t : SQTerm => (t.1 * ((Real.sqrt (2 / S) : ℝ) : ℂ), t.2))).sum = 2 / S * (l.map fun x => ‖x.1‖ ^ 2).sum := by
    intro l
    induction l with
    | nil => simp
    | cons y l ih =>
      rw [List.map_cons, List.sum_cons, List.map_cons, List.sum_cons, ih, mul_add]
      congr 1
      simp only [Function.comp, norm_mul, Complex.norm_real, Real.norm_eq_abs, mul_pow, sq_abs]
      rw [Real.sq_sqrt (by positivity)]; ring
  have := e t
  rw [← hS] at this
  have h2 : 2 / S * S = 2 := by field_simp
  rw [h2] at this
  exact this

/-! ### filling the pool -/

/-- a pool element is `X`, scaled so that its squared coefficients add up to 2 -/
def SaTerm (t : ℂ × SQOperator) (X : Op) : Prop := t.1 = 1 ∧ (t.2.map fun x => ‖x.1‖ ^ 2).sum = 2 ∧ ∃ r : ℝ, 0 < r ∧ t.2.op = (r : ℂ) • X

open Classical in
/-- the operator, unless it vanishes -/
noncomputable def unlessZero (X : Op) : List Op := if X = 0 then [] else [X]

/-- the singles for occupied `i` and virtual `a` -/
noncomputable def saSingleOps (nocc : ℕ) (irr : List ℕ) (x : ℕ × ℕ) : List Op :=
  if irrepOf irr [2 * x.1, 2 * (nocc + x.2)] = 0 then [singleX (nocc + x.2) x.1 - singleX x.1 (nocc + x.2)] else []

/-- the doubles for occupied `i ≤ j` and virtual `a ≤ b` -/
noncomputable def saDoubleOps (nocc : ℕ) (irr : List ℕ) (x : ℕ × ℕ × ℕ × ℕ) : List Op :=
  if irrepOf irr [2 * x.1, 2 * x.2.1, 2 * (nocc + x.2.2.1), 2 * (nocc + x.2.2.2)] = 0 then
    unlessZero (tripletX (nocc + x.2.2.1) (nocc + x.2.2.2) x.1 x.2.1 - tripletX x.2.1 x.1 (nocc + x.2.2.2) (nocc + x.2.2.1)) ++
    unlessZero (singletX (nocc + x.2.2.1) (nocc + x.2.2.2) x.1 x.2.1 - singletX x.2.1 x.1 (nocc + x.2.2.2) (nocc + x.2.2.1))
  else []

theorem foldlM_ext {α : Type} (f : SQOpPool → α → Except Exc SQOpPool) (irr : List ℕ) (g : α → List Op) (l : List α)
    (h : ∀ P : SQOpPool, P.orbIrreps = irr → ∀ x ∈ l, ∃ new, f P x = .ok { P with terms := P.terms ++ new } ∧ List.Forall₂ SaTerm new (g x)) :
    ∀ P : SQOpPool, P.orbIrreps = irr → ∃ new, l.foldlM f P = .ok { P with terms := P.terms ++ new } ∧ List.Forall₂ SaTerm new (l.flatMap g) := by
  induction l with
  | nil => intro P _; exact ⟨[], by simp [pure, Except.pure], by simp⟩
  | cons x l ih =>
    intro P hP
    obtain ⟨n1, e1, f1⟩ := h P hP x List.mem_cons_self
    obtain ⟨n2, e2, f2⟩ := ih (fun P hP x hx => h P hP x (List.mem_cons_of_mem _ hx)) { P with terms := P.terms ++ n1 } hP
    refine ⟨n1 ++ n2, ?_, ?_⟩
    · rw [List.foldlM_cons, e1, except_ok_bind, e2, List.append_assoc]
    · rw [List.flatMap_cons]; exact List.rel_append f1 f2

theorem saSingles_step (o : DescSort) (P : SQOpPool) {nocc nvir i a : ℕ} (hl : nocc + nvir ≤ P.orbIrreps.length) (hi : i < nocc) (ha : a < nvir) :
    ∃ new, saSingles o nocc P (i, a) = .ok { P with terms := P.terms ++ new } ∧ List.Forall₂ SaTerm new (saSingleOps nocc P.orbIrreps (i, a)) := by
  unfold saSingles
  have hv : findIrrep P.orbIrreps [2 * i, 2 * nocc + 2 * a] = .ok (irrepOf P.orbIrreps [2 * i, 2 * nocc + 2 * a]) := by
    apply C45_value
    intro p hp
    simp only [List.mem_cons, List.not_mem_nil, or_false] at hp
    omega
  simp only [hv, except_ok_bind, saSingleOps]
  rw [show 2 * nocc + 2 * a = 2 * (nocc + a) by ring]
  by_cases hz : irrepOf P.orbIrreps [2 * i, 2 * (nocc + a)] = 0
  swap
  · rw [if_neg hz, if_neg hz]; exact ⟨[], by simp [pure, Except.pure], by simp⟩
  rw [if_pos hz, if_pos hz]
  have hw : (0 : ℝ) < 1 / Real.sqrt 2 := by positivity
  have hw2 : (1 / Real.sqrt 2) ^ 2 = 1 / 2 := by rw [div_pow, one_pow, Real.sq_sqrt (by norm_num)]
  have hbig : (1e-12 : ℝ) < 1 / Real.sqrt 2 := by
    have : Real.sqrt 2 < 2 := by rw [Real.sqrt_lt' (by norm_num)]; norm_num
    rw [lt_div_iff₀ (by positivity)]; linarith
  generalize hW : ((1 / Real.sqrt 2 : ℝ) : ℂ) = W
  have nW : ‖W‖ = 1 / Real.sqrt 2 := by rw [← hW, Complex.norm_real, Real.norm_eq_abs, abs_of_pos hw]
  obtain ⟨R, hR, hp⟩ := simplify_perm o ((((SQOperator.addTerm [] W [2 * (nocc + a)] [2 * i]).addTerm W [2 * (nocc + a) + 1] [2 * i + 1]).addTerm (-W) [2 * i] [2 * (nocc + a)]).addTerm (-W) [2 * i + 1] [2 * (nocc + a) + 1])
    (by intro t ht; simp only [SQOperator.addTerm, List.nil_append, List.mem_append, List.mem_singleton] at ht
        rcases ht with ((rfl | rfl) | rfl) | rfl <;> exact ⟨by simp, by simp⟩)
    (by simp only [SQOperator.addTerm, List.nil_append, List.map_append, List.map_cons, List.map_nil, List.cons_append, List.nodup_cons, List.mem_cons, Prod.mk.injEq, List.cons.injEq, and_true, List.not_mem_nil, or_false]
        refine ⟨by omega, by omega, by omega, by simp, by simp⟩)
    (by intro t ht; simp only [SQOperator.addTerm, List.nil_append, List.mem_append, List.mem_singleton] at ht
        rcases ht with ((rfl | rfl) | rfl) | rfl <;> simp only [norm_neg, nW] <;> exact hbig)
  rw [hR, except_ok_bind]
  refine ⟨[(1, R)], rfl, List.Forall₂.cons ⟨rfl, ?_, 1 / Real.sqrt 2, hw, ?_⟩ List.Forall₂.nil⟩
  · rw [(hp.map _).sum_eq]
    simp only [SQOperator.addTerm, List.nil_append, List.map_append, List.map_cons, List.map_nil, List.sum_append, List.sum_cons, List.sum_nil, norm_neg, nW, hw2]
    norm_num
  · have e : SQOperator.op R = ((1 / Real.sqrt 2 : ℝ) : ℂ) • (singleX (nocc + a) i - singleX i (nocc + a)) := by
      have : SQOperator.op R = SQOperator.op ((((SQOperator.addTerm [] W [2 * (nocc + a)] [2 * i]).addTerm W [2 * (nocc + a) + 1] [2 * i + 1]).addTerm (-W) [2 * i] [2 * (nocc + a)]).addTerm (-W) [2 * i + 1] [2 * (nocc + a) + 1]) := by
        unfold SQOperator.op; exact (hp.map _).sum_eq
      rw [this, hW]
      unfold singleX
      apply Op.ext'; intro ψ I
      simp only [SQOperator.op, SQOperator.addTerm, List.nil_append, List.map_append, List.map_cons, List.map_nil, List.sum_append, List.sum_cons, List.sum_nil, add_zero,
        LinearMap.add_apply, Pi.add_apply, LinearMap.smul_apply, Pi.smul_apply, LinearMap.sub_apply, Pi.sub_apply, smul_eq_mul]
      ring
    exact e

theorem unlessZero_rel {R : SQOperator} {X : Op} (hR : ∀ x ∈ R, x.1 ≠ 0) (h0 : R = [] ↔ X = 0) {r : ℝ} (hr : 0 < r) (hop : SQOperator.op R = (r : ℂ) • X) (P : SQOpPool) :
    ∃ new, (if (saNormalise R).length > 0 then P.addTerm 1 (saNormalise R) else P) = { P with terms := P.terms ++ new } ∧ List.Forall₂ SaTerm new (unlessZero X) := by
  have hlen : (saNormalise R).length = R.length := by simp [saNormalise, SQOperator.multCoeffs]
  unfold unlessZero
  by_cases hX : X = 0
  · have := h0.2 hX
    subst this
    rw [if_pos hX, if_neg (by rw [hlen]; simp)]
    exact ⟨[], by simp, by simp⟩
  · have hne : R ≠ [] := fun e => hX (h0.1 e)
    have hpos : 0 < R.length := List.length_pos_iff.2 hne
    rw [if_neg hX, if_pos (by rw [hlen]; exact hpos)]
    refine ⟨[(1, saNormalise R)], rfl, List.Forall₂.cons ?_ List.Forall₂.nil⟩
    obtain ⟨e, hn⟩ := saNormalise_spec R
    obtain ⟨x, hx⟩ := List.exists_mem_of_length_pos hpos
    have hS : 0 < (R.map fun x => ‖x.1‖ ^ 2).sum := by
      have h1 : ‖x.1‖ ^ 2 ≤ (R.map fun x => ‖x.1‖ ^ 2).sum := List.single_le_sum (by intro y hy; obtain ⟨z, _, rfl⟩ := List.mem_map.1 hy; positivity) _ (List.mem_map.2 ⟨x, hx, rfl⟩)
      have : 0 < ‖x.1‖ := norm_pos_iff.2 (hR x hx)
      nlinarith
    refine ⟨rfl, hn ⟨x, hx, hR x hx⟩, Real.sqrt (2 / (R.map fun x => ‖x.1‖ ^ 2).sum) * r, by positivity, ?_⟩
    show SQOperator.op (saNormalise R) = _
    rw [e, hop, smul_smul]; push_cast; rfl

theorem guardTerm_distinct (z : ℂ) (c0 c1 a0 a1 : ℕ) {t : SQOperator} (ht : t.Distinct) : (guardTerm z c0 c1 a0 a1 t).Distinct := by
  unfold guardTerm
  split
  · rename_i h
    intro x hx
    simp only [SQOperator.addTerm, List.mem_append, List.mem_singleton] at hx
    rcases hx with hx | rfl
    · exact ht x hx
    · simpa using h
  · exact ht

theorem simplify_nonzero (o : DescSort) {A R : SQOperator} (hR : simplify o A = .ok R) : ∀ x ∈ R, x.1 ≠ 0 := by
  intro x hx h0
  obtain ⟨A', eA, _⟩ := SQOperator.canonicalOrder_ok o A
  rw [simplify_eq o A A' eA] at hR
  cases hR
  obtain ⟨y, hy, rfl⟩ := List.mem_map.1 hx
  have := (List.mem_filter.1 hy).2
  simp only [decide_eq_true_eq] at this
  simp only at h0
  rw [h0, norm_zero] at this
  norm_num at this

theorem sa_added (o : DescSort) {A R : SQOperator} (hR : simplify o A = .ok R) (hd : A.Distinct) {w r : ℝ} (hw : 1e-12 < |w|) (hz : ∀ t ∈ A, Mul w t.1) (hr : 0 < r) {X : Op}
    (hop : SQOperator.op A = (r : ℂ) • X) (P : SQOpPool) :
    ∃ new, (if (saNormalise R).length > 0 then P.addTerm 1 (saNormalise R) else P) = { P with terms := P.terms ++ new } ∧ List.Forall₂ SaTerm new (unlessZero X) := by
  have h1 := simplify_scaled o A R hR hw hz
  refine unlessZero_rel (simplify_nonzero o hR) ⟨?_, ?_⟩ hr (by rw [h1, hop]) P
  · rintro rfl
    have h2 : (r : ℂ) • X = 0 := by rw [← hop, ← h1]; rfl
    rcases smul_eq_zero.1 h2 with h | h
    · exact absurd (Complex.ofReal_eq_zero.1 h) hr.ne'
    · exact h
  · intro hX
    have := simplify_target o A [] hd (by simp) (by simp) (by simp) (by rw [hop, hX, smul_zero]; rfl)
    rw [this] at hR; cases hR; rfl

theorem saDoubles_step (o : DescSort) (P : SQOpPool) {nocc nvir i j a b : ℕ} (hl : nocc + nvir ≤ P.orbIrreps.length) (hi : i < nocc) (hj : j < nocc) (ha : a < nvir) (hb : b < nvir) :
    ∃ new, saDoubles o nocc P (i, j, a, b) = .ok { P with terms := P.terms ++ new } ∧ List.Forall₂ SaTerm new (saDoubleOps nocc P.orbIrreps (i, j, a, b)) := by
  unfold saDoubles
  have hv : findIrrep P.orbIrreps [2 * i, 2 * j, 2 * nocc + 2 * a, 2 * nocc + 2 * b] = .ok (irrepOf P.orbIrreps [2 * i, 2 * j, 2 * nocc + 2 * a, 2 * nocc + 2 * b]) := by
    apply C45_value
    intro p hp
    simp only [List.mem_cons, List.not_mem_nil, or_false] at hp
    omega
  simp only [hv, except_ok_bind, saDoubleOps]
  rw [show 2 * nocc + 2 * a = 2 * (nocc + a) by ring, show 2 * nocc + 2 * b = 2 * (nocc + b) by ring]
  by_cases hz : irrepOf P.orbIrreps [2 * i, 2 * j, 2 * (nocc + a), 2 * (nocc + b)] = 0
  swap
  · rw [if_neg hz, if_neg hz]; exact ⟨[], by simp [pure, Except.pure], by simp⟩
  rw [if_pos hz, if_pos hz]
  obtain ⟨R1, D1, e1, _⟩ := C35_simplify o (saTriplet (2 * i) (2 * i + 1) (2 * j) (2 * j + 1) (2 * (nocc + a)) (2 * (nocc + a) + 1) (2 * (nocc + b)) (2 * (nocc + b) + 1))
  obtain ⟨R2, D2, e2, _⟩ := C35_simplify o (saSinglet (2 * i) (2 * i + 1) (2 * j) (2 * j + 1) (2 * (nocc + a)) (2 * (nocc + a) + 1) (2 * (nocc + b)) (2 * (nocc + b) + 1))
  rw [e1, except_ok_bind, e2, except_ok_bind]
  have d1 : (saTriplet (2 * i) (2 * i + 1) (2 * j) (2 * j + 1) (2 * (nocc + a)) (2 * (nocc + a) + 1) (2 * (nocc + b)) (2 * (nocc + b) + 1)).Distinct := by
    unfold saTriplet; repeat' apply guardTerm_distinct
    intro t ht; simp at ht
  have d2 : (saSinglet (2 * i) (2 * i + 1) (2 * j) (2 * j + 1) (2 * (nocc + a)) (2 * (nocc + a) + 1) (2 * (nocc + b)) (2 * (nocc + b) + 1)).Distinct := by
    unfold saSinglet; repeat' apply guardTerm_distinct
    intro t ht; simp at ht
  obtain ⟨n1, g1, f1⟩ := sa_added o e1 d1 sqrt12 (saTriplet_mul _ _ _ _ _ _ _ _) (by positivity) (saTriplet_op _ _ _ _) P
  rw [g1]
  obtain ⟨n2, g2, f2⟩ := sa_added o e2 d2 (by rw [abs_of_pos] <;> norm_num) (saSinglet_mul _ _ _ _ _ _ _ _) (by norm_num) (saSinglet_op _ _ _ _) { P with terms := P.terms ++ n1 }
  rw [g2]
  refine ⟨n1 ++ n2, ?_, List.rel_append f1 f2⟩
  simp [pure, Except.pure]

/-- C64: the contents of the sa_SD pool, for every number of orbitals.  With a closed-shell reference filling it never fails, and
it adds, in this order: for every occupied `i` and virtual `a` of the same symmetry the singlet single excitation minus its
adjoint; for every symmetric `i ≤ j`, `a ≤ b` the excitation of triplet pairs and that of singlet pairs minus their adjoints,
unless they vanish.  Occupied are the first `nocc` spatial orbitals.  Each is scaled so that its squared coefficients add up
to 2. -/
theorem C64_contents (o : DescSort) (P : SQOpPool) (hc : P.nOccAlpha = P.nOccBeta) (hl : P.nOccAlpha + P.nVirAlpha ≤ P.orbIrreps.length) :
    ∃ new, fillSaSD o P = .ok { P with terms := P.terms ++ new } ∧ List.Forall₂ SaTerm new
      (((List.range P.nOccAlpha).flatMap fun i => (List.range P.nVirAlpha).map fun a => (i, a)).flatMap (saSingleOps P.nOccAlpha P.orbIrreps) ++
        (gsdQuads P.nOccAlpha P.nVirAlpha).flatMap (saDoubleOps P.nOccAlpha P.orbIrreps)) := by
  unfold fillSaSD
  rw [if_neg (by simpa using hc)]
  obtain ⟨n1, e1, f1⟩ := foldlM_ext (saSingles o P.nOccAlpha) P.orbIrreps (saSingleOps P.nOccAlpha P.orbIrreps)
    ((List.range P.nOccAlpha).flatMap fun i => (List.range P.nVirAlpha).map fun a => (i, a)) (by
      intro P' hP' x hx
      obtain ⟨i, hi, hx⟩ := List.mem_flatMap.1 hx
      obtain ⟨a, ha, rfl⟩ := List.mem_map.1 hx
      rw [← hP']
      exact saSingles_step o P' (by rw [hP']; exact hl) (List.mem_range.1 hi) (List.mem_range.1 ha)) P rfl
  obtain ⟨n2, e2, f2⟩ := foldlM_ext (saDoubles o P.nOccAlpha) P.orbIrreps (saDoubleOps P.nOccAlpha P.orbIrreps) (gsdQuads P.nOccAlpha P.nVirAlpha) (by
      rintro P' hP' ⟨i, j, a, b⟩ hx
      have hx : (i ≤ j ∧ j < P.nOccAlpha) ∧ a ≤ b ∧ b < P.nVirAlpha := mem_gsdQuads.1 hx
      rw [← hP']
      exact saDoubles_step o P' (nvir := P.nVirAlpha) (by rw [hP']; exact hl) (by omega) (by omega) (by omega) (by omega)) { P with terms := P.terms ++ n1 } rfl
  refine ⟨n1 ++ n2, ?_, List.rel_append f1 f2⟩
  simp only [e1, except_ok_bind, e2, List.append_assoc]

/-- C64: every operator the sa_SD pool adds is anti-Hermitian and commutes with the particle number, with `S_z`, `S₊` and `S₋`, so
with the total spin. -/
theorem C64_spin_adapted (o : DescSort) (P : SQOpPool) (hc : P.nOccAlpha = P.nOccBeta) (hl : P.nOccAlpha + P.nVirAlpha ≤ P.orbIrreps.length) :
    ∃ new, fillSaSD o P = .ok { P with terms := P.terms ++ new } ∧ ∀ t ∈ new, t.1 = 1 ∧ (t.2.map fun x => ‖x.1‖ ^ 2).sum = 2 ∧
      AntiHermitian (2 * (P.nOccAlpha + P.nVirAlpha)) t.2.op ∧ Commute (NumOp (2 * (P.nOccAlpha + P.nVirAlpha))) t.2.op ∧
      Commute (SpinZ (2 * (P.nOccAlpha + P.nVirAlpha))) t.2.op ∧ Commute (SpOp (P.nOccAlpha + P.nVirAlpha)) t.2.op ∧
      Commute (SmOp (P.nOccAlpha + P.nVirAlpha)) t.2.op := by
  obtain ⟨new, e, f⟩ := C64_contents o P hc hl
  refine ⟨new, e, ?_⟩
  intro t ht
  obtain ⟨X, hX, t1, t2, r, -, t3⟩ : ∃ X ∈ _, SaTerm t X := by
    have := List.Forall₂.flip f
    exact forall2_mem_right this ht
  have had : SpinAdapted (P.nOccAlpha + P.nVirAlpha) X := by
    have uz : ∀ Y : Op, X ∈ unlessZero Y → X = Y := by
      intro Y h; unfold unlessZero at h; split at h <;> simp at h; exact h
    rcases List.mem_append.1 hX with h | h
    · obtain ⟨x, hx, h⟩ := List.mem_flatMap.1 h
      obtain ⟨i, hi, hx⟩ := List.mem_flatMap.1 hx
      obtain ⟨a, ha, rfl⟩ := List.mem_map.1 hx
      have hi := List.mem_range.1 hi; have ha := List.mem_range.1 ha
      unfold saSingleOps at h
      split at h <;> simp at h
      rw [h]; exact single_adapted (by omega) (by omega)
    · obtain ⟨⟨i, j, a, b⟩, hx, h⟩ := List.mem_flatMap.1 h
      have hx : (i ≤ j ∧ j < P.nOccAlpha) ∧ a ≤ b ∧ b < P.nVirAlpha := mem_gsdQuads.1 hx
      have had := triplet_adapted (k := P.nOccAlpha + P.nVirAlpha) (a := P.nOccAlpha + a) (b := P.nOccAlpha + b) (i := i) (j := j)
        (by intro p hp; simp only [List.mem_cons, List.not_mem_nil, or_false] at hp; omega)
      unfold saDoubleOps at h
      split at h
      · rcases List.mem_append.1 h with h | h
        · rw [uz _ h]; exact had.1
        · rw [uz _ h]; exact had.2
      · simp at h
  have hs := had.smul r
  rw [t3]
  exact ⟨t1, t2, hs.anti, hs.num, hs.sz, hs.sp, hs.sm⟩

/-- C64: an open-shell reference raises -/
theorem C64_open_shell (o : DescSort) (P : SQOpPool) (h : P.nOccAlpha ≠ P.nOccBeta) : fillSaSD o P = .error .invalidArgument := by
  unfold fillSaSD; rw [if_pos h]

/-- the hypotheses hold for every closed-shell reference `set_orb_spaces` accepts; for H2 in a minimal basis -/
theorem C64_example : ∃ P : SQOpPool, (∃ P₀ : SQOpPool, P₀.setOrbSpaces [1, 1, 0, 0] = .ok P) ∧ P.nOccAlpha = P.nOccBeta ∧ P.nOccAlpha + P.nVirAlpha ≤ P.orbIrreps.length ∧
    P.nOccAlpha = 1 ∧ P.nVirAlpha = 1 :=
  ⟨{ refInt := 3, nSpinorb := 4, nOccAlpha := 1, nOccBeta := 1, nVirAlpha := 1, nVirBeta := 1, orbIrreps := [0, 0], terms := [] }, ⟨{}, rfl⟩, rfl, by decide, rfl, rfl⟩

end SQOpPool
end QF
