import Verif.Spec.Trotter
import Verif.Lemmas.OpNorm
import Verif.Props.QSD

/-!
C100: the first-order Trotter circuits converge to the exact exponential, with an explicit error bound.
-/
namespace QF

open NormedSpace

/-- an imaginary multiple of a hermitian contraction -/
structure ImagTerm (n : ℕ) (z : ℂ) (P : Op) : Prop where
  imag : z.re = 0
  bd : Bd n P 1
  herm : ∀ φ ψ, inner n φ (P ψ) = inner n (P φ) ψ

theorem Bd.smul {n : ℕ} {A : Op} {a : ℝ} (h : Bd n A a) (z : ℂ) : Bd n (z • A) (‖z‖ * a) := fun ψ => by
  rw [LinearMap.smul_apply, nrm_smul, mul_assoc]
  exact mul_le_mul_of_nonneg_left (h ψ) (norm_nonneg _)

theorem Bd.add {n : ℕ} {A B : Op} {a b : ℝ} (hA : Bd n A a) (hB : Bd n B b) : Bd n (A + B) (a + b) := fun ψ => by
  rw [LinearMap.add_apply, add_mul]
  exact le_trans (nrm_add_le _ _ _) (add_le_add (hA ψ) (hB ψ))

theorem inner_smulR (n : ℕ) (z : ℂ) (φ ψ : St) : inner n φ (z • ψ) = z * inner n φ ψ := by
  simp only [inner, Finset.mul_sum]
  exact Finset.sum_congr rfl fun I _ => by simp only [Pi.smul_apply, smul_eq_mul]; ring

theorem inner_smulL (n : ℕ) (z : ℂ) (φ ψ : St) : inner n (z • φ) ψ = (starRingEnd ℂ) z * inner n φ ψ := by
  simp only [inner, Finset.mul_sum]
  exact Finset.sum_congr rfl fun I _ => by simp only [Pi.smul_apply, smul_eq_mul, map_mul]; ring

theorem ImagTerm.anti {n : ℕ} {z : ℂ} {P : Op} (h : ImagTerm n z P) : AntiHerm n (z • P) := by
  intro φ ψ
  rw [LinearMap.smul_apply, LinearMap.smul_apply, inner_smulR, inner_smulL, h.herm]
  have : (starRingEnd ℂ) z = -z := by apply Complex.ext <;> simp [h.imag]
  rw [this]; ring

/-- the exponential of an anti-hermitian operator does not increase norms -/
theorem IsExp.contr {n : ℕ} {A U : Op} (h : IsExp A U) {a : ℝ} (hA : Bd n A a) (ha : 0 ≤ a) (hs : AntiHerm n A) : Bd n U 1 := by
  intro ψ
  rw [nrm_eq, nrm_eq, h.toE_eq hA ha]
  refine le_trans (ContinuousLinearMap.le_opNorm _ _) (mul_le_mul_of_nonneg_right ?_ (norm_nonneg _))
  have := skew_contr hs.skew 1
  rwa [one_smul] at this

/-- the exponential of an anti-hermitian operator is unitary -/
theorem IsExp.unitary {n : ℕ} {A U : Op} (h : IsExp A U) {a : ℝ} (hA : Bd n A a) (ha : 0 ≤ a) (hs : AntiHerm n A) (φ ψ : St) :
    inner n (U φ) (U ψ) = inner n φ ψ := by
  let _ := NormedAlgebra.restrictScalars ℚ ℂ (HS n →L[ℂ] HS n)
  have hu := NormedSpace.exp_mem_unitary_of_mem_skewAdjoint hs.skew
  rw [← inner_toE, h.toE_eq hA ha, h.toE_eq hA ha, ← ContinuousLinearMap.adjoint_inner_right, ← ContinuousLinearMap.star_eq_adjoint,
    ← mul_apply_eq_comp, (Unitary.mem_iff.1 hu).1, ← inner_toE]
  rfl

theorem prod_comp {n : ℕ} (L : List (ℂ × Op)) (Us : List Op) (h : ∀ t ∈ L, ImagTerm n t.1 t.2)
    (hE : List.Forall₂ (fun (t : ℂ × Op) U => IsExp (t.1 • t.2) U) L Us) :
    Bd n (applyInOrder Us) 1 ∧ comp n (applyInOrder Us) = prodExp (L.map fun t => comp n (t.1 • t.2)) := by
  induction hE with
  | nil => exact ⟨Bd.one n, comp_one n⟩
  | @cons t U L Us h1 h2 ih =>
    obtain ⟨b1, b2⟩ := ih fun s hs => h s (by simp [hs])
    have ht := h t (by simp)
    have hb : Bd n (t.1 • t.2) ‖t.1‖ := by simpa using ht.bd.smul t.1
    refine ⟨?_, ?_⟩
    · have := b1.mul (h1.contr hb (norm_nonneg _) ht.anti) zero_le_one
      simpa [applyInOrder] using this
    · rw [applyInOrder, comp_mul b1, b2, h1.comp_eq hb (norm_nonneg _)]; rfl

theorem comm_sum_le {𝔸 : Type*} [NormedRing 𝔸] (X : 𝔸) (Xs : List 𝔸) :
    ‖Xs.sum * X - X * Xs.sum‖ ≤ (Xs.map fun Y => ‖Y * X - X * Y‖).sum := by
  induction Xs with
  | nil => simp
  | cons Y Xs ih =>
    simp only [List.sum_cons, List.map_cons]
    have : (Y + Xs.sum) * X - X * (Y + Xs.sum) = (Y * X - X * Y) + (Xs.sum * X - X * Xs.sum) := by noncomm_ring
    rw [this]
    exact le_trans (norm_add_le _ _) (by linarith)

open Classical in
theorem pair_le {n : ℕ} {P Q : Op} {y z : ℂ} (hP : ImagTerm n y P) (hQ : ImagTerm n z Q) :
    ‖comp n (y • P) * comp n (z • Q) - comp n (z • Q) * comp n (y • P)‖ ≤ 2 * (if Commute P Q then 0 else ‖y‖ * ‖z‖) := by
  have bP : Bd n (y • P) ‖y‖ := by simpa using hP.bd.smul y
  have bQ : Bd n (z • Q) ‖z‖ := by simpa using hQ.bd.smul z
  by_cases h : Commute P Q
  · rw [if_pos h, ← comp_mul bP, ← comp_mul bQ]
    have : (y • P) * (z • Q) = (z • Q) * (y • P) := (h.smul_left y).smul_right z
    rw [this, sub_self]; simp
  · rw [if_neg h]
    have h1 := norm_comp_le bP (norm_nonneg _)
    have h2 := norm_comp_le bQ (norm_nonneg _)
    have t1 := le_trans (norm_mul_le (comp n (y • P)) (comp n (z • Q))) (mul_le_mul h1 h2 (norm_nonneg _) (norm_nonneg _))
    have t2 := le_trans (norm_mul_le (comp n (z • Q)) (comp n (y • P))) (mul_le_mul h2 h1 (norm_nonneg _) (norm_nonneg _))
    refine le_trans (norm_sub_le _ _) ?_
    linarith [mul_comm ‖y‖ ‖z‖]

theorem comm_weight {n : ℕ} (f : ℂ) (N : ℂ) : ∀ (H : QubitOperator), (∀ t ∈ H, ImagTerm n (f * t.1 / N) t.2.op) →
    commSum (H.map fun t => comp n ((f * t.1 / N) • t.2.op)) ≤ ncWeight f H / ‖N‖ ^ 2
  | [], _ => by simp [commSum, ncWeight]
  | t :: H, h => by
    have ih := comm_weight f N H fun s hs => h s (by simp [hs])
    rw [List.map_cons, commSum, ncWeight, add_div]
    refine add_le_add ?_ ih
    have h1 := comm_sum_le (comp n ((f * t.1 / N) • t.2.op)) (H.map fun t => comp n ((f * t.1 / N) • t.2.op))
    rw [List.map_map] at h1
    have h2 : (H.map ((fun Y => ‖Y * comp n ((f * t.1 / N) • t.2.op) - comp n ((f * t.1 / N) • t.2.op) * Y‖) ∘
        fun t => comp n ((f * t.1 / N) • t.2.op))).sum ≤
        (H.map fun s => 2 / ‖N‖ ^ 2 * (open Classical in if Commute s.2.op t.2.op then 0 else ‖f * s.1‖ * ‖f * t.1‖)).sum := by
      refine List.sum_le_sum fun s hs => ?_
      refine le_trans (pair_le (h s (by simp [hs])) (h t (by simp))) (le_of_eq ?_)
      by_cases hc : Commute s.2.op t.2.op
      · simp [hc]
      · simp only [if_neg hc, norm_div]; ring
    rw [List.sum_map_mul_left] at h2
    have := le_trans h1 h2
    calc _ ≤ _ := div_le_div_of_nonneg_right this (by norm_num)
      _ = _ := by ring

theorem map_comp_sum {n : ℕ} (f : ℂ) {N : ℕ} (hN : 1 ≤ N) (H : QubitOperator) :
    N • (H.map fun t => comp n ((f * t.1 / (N : ℂ)) • t.2.op)).sum = comp n (f • H.op) := by
  have h0 : (N : ℂ) ≠ 0 := by exact_mod_cast (by omega : N ≠ 0)
  induction H with
  | nil => simp [QubitOperator.op, comp_zero]
  | cons t H ih =>
    have e : QubitOperator.op (t :: H) = t.1 • t.2.op + QubitOperator.op H := by simp [QubitOperator.op]
    rw [List.map_cons, List.sum_cons, smul_add, ih, e, smul_add, comp_add, ← Nat.cast_smul_eq_nsmul ℂ, comp_smul, smul_smul, smul_smul, comp_smul]
    congr 1
    rw [comp_smul]
    congr 1
    field_simp

/-! ### Pauli strings -/

theorem ipauli_noI {n : ℕ} {c : Circuit} (h : c.IPauliString) (hf : c.Fits n) : (Circuit.noI c).PauliString n :=
  ⟨(noI_pauli h).1, (noI_pauli h).2, fun g hg => hf g (List.mem_of_mem_filter hg)⟩

theorem ipauli_imag {n : ℕ} {c : Circuit} (h : c.IPauliString) (hf : c.Fits n) {z : ℂ} (hz : z.re = 0) : ImagTerm n z c.op := by
  have hp := ipauli_noI h hf
  rw [← noI_op h]
  exact ⟨hz, fun ψ => by rw [nrm_circuit hp.fits (QiteAlg.string_unitary hp), one_mul], QiteAlg.pauli_herm hp⟩

theorem op_bd {n : ℕ} (H : QubitOperator) (h : ∀ t ∈ H, t.2.IPauliString ∧ t.2.Fits n) : ∃ a, 0 ≤ a ∧ Bd n H.op a := by
  induction H with
  | nil => exact ⟨0, le_rfl, fun ψ => by simp [QubitOperator.op, nrm_zero]⟩
  | cons t H ih =>
    obtain ⟨a, h0, ha⟩ := ih fun s hs => h s (by simp [hs])
    have ht := (ipauli_imag (h t (by simp)).1 (h t (by simp)).2 (z := 0) rfl).bd
    refine ⟨‖t.1‖ * 1 + a, by positivity, ?_⟩
    have e : QubitOperator.op (t :: H) = t.1 • t.2.op + QubitOperator.op H := by simp [QubitOperator.op]
    rw [e]
    exact (ht.smul t.1).add ha

theorem Circuit.Fits.mono {c : Circuit} {m n : ℕ} (h : c.Fits n) (hm : n ≤ m) : c.Fits m := fun g hg =>
  ⟨lt_of_lt_of_le (h g hg).1 hm, lt_of_lt_of_le (h g hg).2 hm⟩

/-- every operator made of Pauli strings has an exponential -/
theorem pauli_exp_exists {n : ℕ} (z : ℂ) (H : QubitOperator) (h : ∀ t ∈ H, t.2.IPauliString ∧ t.2.Fits n) : ∃ U, IsExp (z • H.op) U := by
  refine exists_isExp (n := n) fun m hm => ?_
  obtain ⟨a, h0, ha⟩ := op_bd (n := m) H fun t ht => ⟨(h t ht).1, (h t ht).2.mono hm⟩
  exact ⟨‖z‖ * a, by positivity, ha.smul z⟩

theorem AntiHerm.zero (n : ℕ) : AntiHerm n 0 := fun φ ψ => by simp [inner]

theorem AntiHerm.add {n : ℕ} {A B : Op} (hA : AntiHerm n A) (hB : AntiHerm n B) : AntiHerm n (A + B) := by
  intro φ ψ
  have h1 := hA φ ψ
  have h2 := hB φ ψ
  have e1 : inner n φ (A ψ + B ψ) = inner n φ (A ψ) + inner n φ (B ψ) := by simp [inner, mul_add, Finset.sum_add_distrib]
  have e2 : inner n (A φ + B φ) ψ = inner n (A φ) ψ + inner n (B φ) ψ := by simp [inner, add_mul, Finset.sum_add_distrib]
  rw [LinearMap.add_apply, LinearMap.add_apply, e1, e2, h1, h2]; ring

theorem op_anti {n : ℕ} (f : ℂ) (H : QubitOperator) (h : ∀ t ∈ H, t.2.IPauliString ∧ t.2.Fits n) (hf : ∀ t ∈ H, (f * t.1).re = 0) :
    AntiHerm n (f • H.op) := by
  induction H with
  | nil =>
    have : f • QubitOperator.op [] = 0 := by simp [QubitOperator.op]
    rw [this]; exact AntiHerm.zero n
  | cons t H ih =>
    have e : f • QubitOperator.op (t :: H) = (f * t.1) • t.2.op + f • QubitOperator.op H := by simp [QubitOperator.op, smul_smul]
    rw [e]
    exact ((ipauli_imag (h t (by simp)).1 (h t (by simp)).2 (hf t (by simp))).anti).add (ih (fun s hs => h s (by simp [hs])) fun s hs => hf s (by simp [hs]))

theorem trotter_bound_hs {n : ℕ} (Xs : List (HS n →L[ℂ] HS n)) (h : ∀ X ∈ Xs, X ∈ skewAdjoint (HS n →L[ℂ] HS n)) (N : ℕ) :
    ‖prodExp Xs ^ N - exp (N • Xs.sum)‖ ≤ N * commSum Xs :=
  trotter_error (skewAdjoint (HS n →L[ℂ] HS n)).toAddSubmonoid (fun _ hX => skew_contr hX) Xs h N

theorem toE_dist {n : ℕ} {V U A : Op} {Xs : List (HS n →L[ℂ] HS n)} {N : ℕ} {a : ℝ} (b1 : Bd n V 1) (b3 : comp n V = prodExp Xs)
    (hs0 : N • Xs.sum = comp n A) (ha : Bd n A a) (h0 : 0 ≤ a) (hE : IsExp A U) (ψ : St) :
    toE n ((V ^ N) ψ - U ψ) = (prodExp Xs ^ N - exp (N • Xs.sum)) (toE n ψ) := by
  rw [hs0, sub_apply, ← hE.toE_eq ha h0, ← b3, ← comp_pow b1 zero_le_one, comp_toE (b1.pow zero_le_one N)]
  exact (toEL n).map_sub _ _

theorem nrm_dist {n : ℕ} {V U A : Op} {Xs : List (HS n →L[ℂ] HS n)} {N : ℕ} {a : ℝ} (b1 : Bd n V 1) (b3 : comp n V = prodExp Xs)
    (hs0 : N • Xs.sum = comp n A) (ha : Bd n A a) (h0 : 0 ≤ a) (hE : IsExp A U) (hs : ∀ X ∈ Xs, X ∈ skewAdjoint (HS n →L[ℂ] HS n)) (ψ : St) :
    nrm n ((V ^ N) ψ - U ψ) ≤ N * commSum Xs * nrm n ψ := by
  rw [nrm_eq, nrm_eq, toE_dist b1 b3 hs0 ha h0 hE]
  exact le_trans (ContinuousLinearMap.le_opNorm _ _) (mul_le_mul_of_nonneg_right (trotter_bound_hs Xs hs N) (norm_nonneg _))

theorem prod_comp_terms {n : ℕ} (H : QubitOperator) (f N : ℂ) (him : ∀ t ∈ H, ImagTerm n (f * t.1 / N) t.2.op) (Us : List Op)
    (hU : List.Forall₂ (fun t U => IsExp ((f * t.1 / N) • t.2.op) U) H Us) :
    Bd n (applyInOrder Us) 1 ∧ comp n (applyInOrder Us) = prodExp (H.map fun t => comp n ((f * t.1 / N) • t.2.op)) := by
  have h1 : ∀ t ∈ H.map fun t => (f * t.1 / N, t.2.op), ImagTerm n t.1 t.2 := by
    intro t ht
    obtain ⟨s, hs, e⟩ := List.mem_map.1 ht
    rw [← e]
    exact him s hs
  have h2 : List.Forall₂ (fun (t : ℂ × Op) U => IsExp (t.1 • t.2) U) (H.map fun t => (f * t.1 / N, t.2.op)) Us :=
    List.forall₂_map_left_iff.2 hU
  have h3 := prod_comp _ Us h1 h2
  rw [List.map_map] at h3
  exact h3

/-- the distance between the `N`-step Trotter product and the exact exponential -/
theorem trotter_dist {n : ℕ} (H : QubitOperator) (f : ℂ) (N : ℕ) (hN : 1 ≤ N) (h : ∀ t ∈ H, t.2.IPauliString ∧ t.2.Fits n)
    (hf : ∀ t ∈ H, (f * t.1).re = 0) (Us : List Op)
    (hU : List.Forall₂ (fun t U => IsExp ((f * t.1 / (N : ℂ)) • t.2.op) U) H Us) {U : Op} (hE : IsExp (f • H.op) U) (ψ : St) :
    nrm n ((applyInOrder Us ^ N) ψ - U ψ) ≤ ncWeight f H / N * nrm n ψ := by
  have hN' : (0 : ℝ) < N := by exact_mod_cast hN
  have him : ∀ t ∈ H, ImagTerm n (f * t.1 / (N : ℂ)) t.2.op := fun t ht => ipauli_imag (h t ht).1 (h t ht).2 (by
    rw [← Complex.ofReal_natCast, Complex.div_ofReal_re, hf t ht, zero_div])
  obtain ⟨b1, b3⟩ := prod_comp_terms H f N him Us hU
  obtain ⟨a, h0, ha⟩ := op_bd H h
  have hs0 := map_comp_sum (n := n) f hN H
  generalize hX : (H.map fun t => comp n ((f * t.1 / (N : ℂ)) • t.2.op)) = Xs at b3 hs0
  have hs : ∀ X ∈ Xs, X ∈ skewAdjoint (HS n →L[ℂ] HS n) := fun X hx => by
    rw [← hX] at hx
    obtain ⟨t, ht, rfl⟩ := List.mem_map.1 hx
    exact (him t ht).anti.skew
  refine le_trans (nrm_dist b1 b3 hs0 (ha.smul f) (mul_nonneg (norm_nonneg _) h0) hE hs ψ) (mul_le_mul_of_nonneg_right ?_ (nrm_nonneg _ _))
  have hw := comm_weight f (N : ℂ) H him
  rw [hX, Complex.norm_natCast] at hw
  refine le_trans (mul_le_mul_of_nonneg_left hw hN'.le) (le_of_eq ?_)
  field_simp

/-- C100: for every operator made of Pauli strings, every factor making it anti-hermitian and every number of Trotter steps, the
exact exponential exists, is unitary, and the circuit returned by `trotterize` (times its phase) differs from it on every state by
at most `W/N` times the norm of the state, where `W` is the sum of the products of the coefficients of the pairs of terms that do
not commute. -/
theorem C100_error (n : ℕ) (H : QubitOperator) (factor : ℂ) (N order : ℤ) (ho : order ≤ 1) (hN : 1 ≤ N)
    (hH : ∀ t ∈ H, TrotterTerm t.2 ∧ t.2.Fits n) (hf : ∀ t ∈ H, (factor * t.1).re = 0) :
    ∃ C ph U, trotterize H factor N order = .ok (C, ph) ∧ IsExp (factor • H.op) U ∧
      (∀ φ ψ, inner n (U φ) (U ψ) = inner n φ ψ) ∧
      ∀ ψ, nrm n (ph • Circuit.op C ψ - U ψ) ≤ ncWeight factor H / N * nrm n ψ := by
  obtain ⟨C, ph, Us, h1, h2, h3, -⟩ := C40_trotterize H factor N order ho (by omega) (fun t ht => (hH t ht).1) hf
  have hp : ∀ t ∈ H, t.2.IPauliString ∧ t.2.Fits n := fun t ht => ⟨(hH t ht).1.1, (hH t ht).2⟩
  obtain ⟨U, hU⟩ := pauli_exp_exists factor H hp
  obtain ⟨a, h0, ha⟩ := op_bd H hp
  obtain ⟨k, rfl⟩ : ∃ k : ℕ, N = k := ⟨N.toNat, by omega⟩
  refine ⟨C, ph, U, h1, hU, hU.unitary (ha.smul factor) (by positivity) (op_anti factor H hp hf), fun ψ => ?_⟩
  rw [← LinearMap.smul_apply, h3]
  simp only [Int.toNat_natCast, Int.cast_natCast] at h2 ⊢
  exact trotter_dist H factor k (by omega) hp hf Us h2 hU ψ

/-- C100: hence the circuits converge to the exact exponential on every state as the number of Trotter steps grows -/
theorem C100_converges (n : ℕ) (H : QubitOperator) (factor : ℂ) (hH : ∀ t ∈ H, TrotterTerm t.2 ∧ t.2.Fits n)
    (hf : ∀ t ∈ H, (factor * t.1).re = 0) :
    ∃ (C : ℕ → Circuit) (ph : ℕ → ℂ) (U : Op), (∀ N : ℕ, 1 ≤ N → trotterize H factor N 1 = .ok (C N, ph N)) ∧ IsExp (factor • H.op) U ∧
      ∀ (ψ : St), ∀ I < 2 ^ n, Filter.Tendsto (fun N => ph N * (C N).op ψ I) Filter.atTop (nhds (U ψ I)) := by
  have h := fun N : ℕ => C100_error n H factor ((N + 1 : ℕ) : ℤ) 1 le_rfl (by omega) hH hf
  choose C ph U h1 h2 h3 h4 using h
  have hU : ∀ N, U N = U 0 := fun N => (h2 N).unique (h2 0)
  refine ⟨fun N => C (N - 1), fun N => ph (N - 1), U 0, ?_, h2 0, ?_⟩
  · intro N hN
    have := h1 (N - 1)
    rwa [Nat.sub_add_cancel hN] at this
  · intro ψ I hI
    have key : Filter.Tendsto (fun N : ℕ => ph N * (C N).op ψ I) Filter.atTop (nhds (U 0 ψ I)) := by
      rw [tendsto_iff_norm_sub_tendsto_zero]
      have lim : Filter.Tendsto (fun N : ℕ => ncWeight factor H / ((N : ℝ) + 1) * nrm n ψ) Filter.atTop (nhds 0) := by
        have := (tendsto_one_div_add_atTop_nhds_zero_nat (𝕜 := ℝ)).const_mul (ncWeight factor H * nrm n ψ)
        rw [mul_zero] at this
        refine this.congr fun N => by ring
      refine squeeze_zero (fun _ => norm_nonneg _) (fun N => ?_) lim
      have e := h4 N ψ
      rw [hU N] at e
      push_cast at e
      exact le_trans (entry_le_nrm (ψ := ph N • (C N).op ψ - U 0 ψ) hI) e
    have := (Filter.tendsto_add_atTop_iff_nat (f := fun N : ℕ => ph (N - 1) * (C (N - 1)).op ψ I) 1).1 (by simpa using key)
    exact this

/-- C100 for the Krylov and imaginary-time algorithms: their Trotterized states tend to the exactly evolved ones -/
theorem C100_states (n : ℕ) (H : QubitOperator) (hH : ∀ t ∈ H, t.1.im = 0 ∧ t.2.PauliString n) (N : ℤ) (hN : 1 ≤ N) (τ : ℝ) (Φ χ : St)
    (h : TrotterState H N τ Φ χ) : ∃ U, IsExp ((-Complex.I * τ) • H.op) U ∧ (∀ φ ψ, inner n (U φ) (U ψ) = inner n φ ψ) ∧
      nrm n (χ - U Φ) ≤ τ ^ 2 * ncWeight 1 H / N * nrm n Φ := by
  obtain ⟨Us, h1, rfl⟩ := h
  have hp : ∀ t ∈ H, t.2.IPauliString ∧ t.2.Fits n := fun t ht => ⟨(trotterTerm_of (hH t ht).2).1, (hH t ht).2.fits⟩
  have hf : ∀ t ∈ H, (-Complex.I * τ * t.1).re = 0 := fun t ht => by simp [(hH t ht).1]
  obtain ⟨U, hU⟩ := pauli_exp_exists (-Complex.I * τ) H hp
  obtain ⟨a, h0, ha⟩ := op_bd H hp
  obtain ⟨k, rfl⟩ : ∃ k : ℕ, N = k := ⟨N.toNat, by omega⟩
  refine ⟨U, hU, hU.unitary (ha.smul _) (by positivity) (op_anti _ H hp hf), ?_⟩
  simp only [Int.toNat_natCast, Int.cast_natCast] at h1 ⊢
  refine le_trans (trotter_dist H _ k (by omega) hp hf Us h1 hU Φ) (le_of_eq ?_)
  have : ∀ A : QubitOperator, ncWeight (-Complex.I * τ) A = τ ^ 2 * ncWeight 1 A := by
    intro A
    induction A with
    | nil => simp [ncWeight]
    | cons t A ih =>
      rw [ncWeight, ncWeight, ih, mul_add, ← List.sum_map_mul_left]
      congr 2
      refine List.map_congr_left fun s _ => ?_
      by_cases hc : Commute s.2.op t.2.op
      · simp [hc]
      · simp only [if_neg hc, norm_mul, norm_neg, Complex.norm_I, Complex.norm_real, one_mul, Real.norm_eq_abs]
        rw [show |τ| * ‖s.1‖ * (|τ| * ‖t.1‖) = |τ| ^ 2 * (‖s.1‖ * ‖t.1‖) by ring, sq_abs]
  rw [this]

theorem inner_sub_le (n : ℕ) (a b c d : St) : ‖inner n a b - inner n c d‖ ≤ nrm n (a - c) * nrm n b + nrm n c * nrm n (b - d) := by
  have e : inner n a b - inner n c d = inner n (a - c) b + inner n c (b - d) := by
    simp only [inner, ← Finset.sum_sub_distrib, ← Finset.sum_add_distrib, Pi.sub_apply, map_sub]
    exact Finset.sum_congr rfl fun I _ => by ring
  rw [e]
  exact le_trans (norm_add_le _ _) (add_le_add (inner_le _ _ _) (inner_le _ _ _))

theorem nrm_of_one {n : ℕ} {ψ : St} (h : inner n ψ ψ = 1) : nrm n ψ = 1 := by
  have h1 := nrm_sq_inner n ψ
  rw [h] at h1
  have h2 : nrm n ψ ^ 2 = 1 := by exact_mod_cast h1
  nlinarith [nrm_nonneg n ψ]

/-- C100 for the single-reference quantum Krylov method: with `N` Trotter steps the overlap and Hamiltonian matrices it diagonalises
differ from those of the exactly propagated states `exp(-i m dt H) Uprep|0⟩` by at most a constant over `N`. -/
theorem C100_srqk (A : QkAlg) (hA : A.Ready) (hp : ∀ g ∈ A.uprep, ApiGate g) (h0 : 1 ≤ A.nstates) (hN : 1 ≤ A.trotterNumber) :
    ∃ (S H : NMat) (φ : ℕ → St), A.srqkMats = .ok (S, H) ∧
      (∀ m : ℕ, ∃ U, IsExp ((-Complex.I * ((m * A.dt : ℝ) : ℂ)) • A.ham.op) U ∧ φ m = U (A.uprep.op (Computer.init A.nqb).psi)) ∧
      ∀ m < A.nstates, ∀ k < A.nstates,
        ‖S m k - inner A.nqb (φ m) (φ k)‖ ≤ ((m : ℝ) ^ 2 + (k : ℝ) ^ 2) * A.dt ^ 2 * ncWeight 1 A.ham / A.trotterNumber ∧
        ‖H m k - inner A.nqb (φ m) (A.ham.op (φ k))‖ ≤
          (A.ham.map fun t => ‖t.1‖).sum * (((m : ℝ) ^ 2 + (k : ℝ) ^ 2) * A.dt ^ 2 * ncWeight 1 A.ham / A.trotterNumber) := by
  obtain ⟨S, H, ψ, e, hψ, hM⟩ := C77_srqk A hA h0
  set Φ := A.uprep.op (Computer.init A.nqb).psi with hΦ
  have nΦ : inner A.nqb Φ Φ = 1 := by
    rw [hΦ, inner_circuit hA.prep.1 (fun g hg => C02_unitary (hp g hg)), init_psi]
    simp [inner]
  have hs := fun m : ℕ => C100_states A.nqb A.ham hA.ham A.trotterNumber hN (m * A.dt) Φ (ψ m) (hψ m)
  choose U u1 u2 u3 using hs
  have nψ : ∀ m, nrm A.nqb (ψ m) = 1 := fun m => nrm_of_one (by rw [QiteAlg.trotterState_norm hA.ham (hψ m), nΦ])
  have nφ : ∀ m, nrm A.nqb (U m Φ) = 1 := fun m => nrm_of_one (by rw [u2, nΦ])
  have d : ∀ m : ℕ, nrm A.nqb (ψ m - U m Φ) ≤ (m : ℝ) ^ 2 * A.dt ^ 2 * ncWeight 1 A.ham / A.trotterNumber := fun m => by
    have := u3 m
    rwa [nrm_of_one nΦ, mul_one, mul_pow] at this
  have hop : ∀ χ, nrm A.nqb (A.ham.op χ) ≤ (A.ham.map fun t => ‖t.1‖).sum * nrm A.nqb χ := by
    intro χ
    have hb : ∀ (B : QubitOperator), (∀ t ∈ B, t.2.PauliString A.nqb) → nrm A.nqb (B.op χ) ≤ (B.map fun t => ‖t.1‖).sum * nrm A.nqb χ := by
      intro B hB
      induction B with
      | nil => simp [QubitOperator.op, nrm_zero]
      | cons t B ih =>
        have hc := hB t (by simp)
        have e : QubitOperator.op (t :: B) = t.1 • t.2.op + QubitOperator.op B := by simp [QubitOperator.op]
        rw [e, LinearMap.add_apply, LinearMap.smul_apply, List.map_cons, List.sum_cons, add_mul]
        refine le_trans (nrm_add_le _ _ _) (add_le_add (le_of_eq ?_) (ih fun s hs => hB s (by simp [hs])))
        rw [nrm_smul, nrm_circuit hc.fits (QiteAlg.string_unitary hc)]
    exact hb A.ham fun t ht => (hA.ham t ht).2
  have w0 : 0 ≤ (A.ham.map fun t => ‖t.1‖).sum := List.sum_nonneg fun x hx => by
    obtain ⟨t, -, rfl⟩ := List.mem_map.1 hx
    exact norm_nonneg _
  refine ⟨S, H, fun m => U m Φ, e, fun m => ⟨U m, u1 m, rfl⟩, fun m hm k hk => ?_⟩
  obtain ⟨e1, e2⟩ := hM m hm k hk
  have hd := add_le_add (d m) (d k)
  have hsum : (m : ℝ) ^ 2 * A.dt ^ 2 * ncWeight 1 A.ham / A.trotterNumber + (k : ℝ) ^ 2 * A.dt ^ 2 * ncWeight 1 A.ham / A.trotterNumber =
      ((m : ℝ) ^ 2 + (k : ℝ) ^ 2) * A.dt ^ 2 * ncWeight 1 A.ham / A.trotterNumber := by ring
  rw [hsum] at hd
  constructor
  · rw [e1]
    refine le_trans (inner_sub_le _ _ _ _ _) ?_
    rw [nψ, nφ, mul_one, one_mul]
    exact hd
  · rw [e2]
    refine le_trans (inner_sub_le _ _ _ _ _) ?_
    rw [nφ, one_mul, ← map_sub]
    have t1 := hop (ψ k)
    have t2 := hop (ψ k - U k Φ)
    rw [nψ, mul_one] at t1
    have t3 := mul_le_mul_of_nonneg_left t1 (nrm_nonneg A.nqb (ψ m - U m Φ))
    have t4 := mul_le_mul_of_nonneg_left hd w0
    rw [mul_add] at t4
    linarith [mul_comm (nrm A.nqb (ψ m - U m Φ)) (A.ham.map fun t => ‖t.1‖).sum]

/-- C100 on `X₀ + Z₀`, whose two terms do not commute: the error of `N` Trotter steps of `exp(-i t H)` is at most `t²/N` -/
theorem C100_example (t : ℝ) (N : ℤ) (hN : 1 ≤ N) : ∃ C ph U, trotterize [(1, [gX 0]), (1, [gZ 0])] (-(t * Complex.I)) N = .ok (C, ph) ∧
    IsExp ((-(t * Complex.I)) • QubitOperator.op [(1, [gX 0]), (1, [gZ 0])]) U ∧
    ∀ ψ, nrm 1 (ph • Circuit.op C ψ - U ψ) ≤ t ^ 2 / N * nrm 1 ψ := by
  obtain ⟨C, ph, U, h1, h2, -, h3⟩ := C100_error 1 [(1, [gX 0]), (1, [gZ 0])] (-(t * Complex.I)) N 1 le_rfl hN
    (by
      intro x hx
      simp only [List.mem_cons, List.not_mem_nil, or_false] at hx
      rcases hx with rfl | rfl
      · refine ⟨⟨⟨?_, by decide⟩, .inr ⟨gX 0, by simp, by decide⟩⟩, ?_⟩
        · intro g hg; rw [List.mem_singleton.1 hg]; exact ⟨.inr (.inl rfl), make_X _ 0⟩
        · intro g hg; rw [List.mem_singleton.1 hg]; exact ⟨by decide, by decide⟩
      · refine ⟨⟨⟨?_, by decide⟩, .inr ⟨gZ 0, by simp, by decide⟩⟩, ?_⟩
        · intro g hg; rw [List.mem_singleton.1 hg]; exact ⟨.inr (.inr (.inr rfl)), make_Z _ 0⟩
        · intro g hg; rw [List.mem_singleton.1 hg]; exact ⟨by decide, by decide⟩)
    (by
      intro x hx
      simp only [List.mem_cons, List.not_mem_nil, or_false] at hx
      rcases hx with rfl | rfl <;> norm_num [Complex.mul_re])
  refine ⟨C, ph, U, h1, h2, fun ψ => le_trans (h3 ψ) (mul_le_mul_of_nonneg_right (div_le_div_of_nonneg_right ?_ (by exact_mod_cast (by omega : 0 ≤ N))) (nrm_nonneg _ _))⟩
  simp only [ncWeight, List.map_cons, List.map_nil, List.sum_cons, List.sum_nil, add_zero]
  split_ifs
  · positivity
  · simp [← pow_two]

end QF
