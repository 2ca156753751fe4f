import Verif.Spec.Charge
import Verif.Lemmas.Fermion
import Verif.Lemmas.Inner
import Verif.Lemmas.PauliGates

/-! Adjoints and charges of products of ladder operators. -/
namespace QF

theorem IsAdj.mul {n : ℕ} {A B A' B' : Op} (h : IsAdj n A A') (h' : IsAdj n B B') : IsAdj n (A * B) (B' * A') := by
  intro φ ψ
  rw [Module.End.mul_apply, Module.End.mul_apply, h, h']

theorem IsAdj.one (n : ℕ) : IsAdj n 1 1 := fun _ _ => rfl

theorem IsAdj.ladder {n p : ℕ} (hp : p < n) (b : Bool) : IsAdj n (ladder b p) (ladder (!b) p) := by
  intro φ ψ
  unfold inner
  rw [← sum_flip hp]
  apply Finset.sum_congr rfl
  intro I _
  rw [ladder_apply, ladder_apply, testBit_flipBit, if_pos rfl, flipBit_flipBit, fsign_flip, if_neg (lt_irrefl p)]
  have hs : (starRingEnd ℂ) (fsign I p) = fsign I p := by unfold fsign; simp
  cases b <;> cases h : I.testBit p <;> simp [hs] <;> ring

theorem IsAdj.prod {n : ℕ} (b : Bool) : ∀ (l : List ℕ), (∀ p ∈ l, p < n) →
    IsAdj n (l.map (QF.ladder b)).prod (l.reverse.map (QF.ladder (!b))).prod := by
  intro l
  induction l with
  | nil => intro _; exact .one n
  | cons p l ih =>
    intro h
    rw [List.map_cons, List.prod_cons, List.reverse_cons, List.map_append, List.prod_append, List.map_singleton, List.prod_singleton]
    exact (IsAdj.ladder (h p (by simp)) b).mul (ih (fun q hq => h q (by simp [hq])))

/-- the adjoint of `p₁† p₂† … q₁ q₂ …` is the product in reverse order -/
theorem IsAdj.fermiString {n : ℕ} {c a : List ℕ} (hc : ∀ p ∈ c, p < n) (ha : ∀ p ∈ a, p < n) :
    IsAdj n (fermiString c a) (fermiString a.reverse c.reverse) := (IsAdj.prod true c hc).mul (IsAdj.prod false a ha)

theorem inner_sub_right (n : ℕ) (φ ψ χ : St) : inner n φ (ψ - χ) = inner n φ ψ - inner n φ χ := by
  unfold inner; rw [← Finset.sum_sub_distrib]; apply Finset.sum_congr rfl; intro I _; rw [Pi.sub_apply]; ring
theorem inner_sub_left (n : ℕ) (φ ψ χ : St) : inner n (φ - ψ) χ = inner n φ χ - inner n ψ χ := by
  unfold inner; rw [← Finset.sum_sub_distrib]; apply Finset.sum_congr rfl; intro I _; rw [Pi.sub_apply, map_sub]; ring
theorem inner_add_right (n : ℕ) (φ ψ χ : St) : inner n φ (ψ + χ) = inner n φ ψ + inner n φ χ := by
  unfold inner; rw [← Finset.sum_add_distrib]; apply Finset.sum_congr rfl; intro I _; rw [Pi.add_apply]; ring
theorem inner_add_left (n : ℕ) (φ ψ χ : St) : inner n (φ + ψ) χ = inner n φ χ + inner n ψ χ := by
  unfold inner; rw [← Finset.sum_add_distrib]; apply Finset.sum_congr rfl; intro I _; rw [Pi.add_apply, map_add]; ring
theorem inner_smul_right' (n : ℕ) (z : ℂ) (φ ψ : St) : inner n φ (z • ψ) = z * inner n φ ψ := by
  unfold inner; rw [Finset.mul_sum]; apply Finset.sum_congr rfl; intro I _; rw [Pi.smul_apply, smul_eq_mul]; ring
theorem inner_smul_left' (n : ℕ) (z : ℂ) (φ ψ : St) : inner n (z • φ) ψ = (starRingEnd ℂ) z * inner n φ ψ := by
  unfold inner; rw [Finset.mul_sum]; apply Finset.sum_congr rfl; intro I _; rw [Pi.smul_apply, smul_eq_mul, map_mul]; ring
theorem inner_conj (n : ℕ) (φ ψ : St) : (starRingEnd ℂ) (inner n φ ψ) = inner n ψ φ := by
  unfold inner; rw [map_sum]; apply Finset.sum_congr rfl; intro I _; rw [map_mul, Complex.conj_conj]; ring

theorem IsAdj.symm {n : ℕ} {A B : Op} (h : IsAdj n A B) : IsAdj n B A := by
  intro φ ψ
  rw [← inner_conj, ← h, inner_conj]

/-- `E - E†` is anti-Hermitian -/
theorem IsAdj.antiHermitian {n : ℕ} {A B : Op} (h : IsAdj n A B) : AntiHermitian n (A - B) := by
  intro φ ψ
  rw [LinearMap.sub_apply, LinearMap.sub_apply, inner_sub_right, inner_sub_left, h, h.symm]; ring

/-! ### charges -/

theorem chargeOp_apply (w : ℕ → ℂ) (n : ℕ) (ψ : St) (I : ℕ) : chargeOp w n ψ I = (∑ p ∈ Finset.range n, if I.testBit p then w p else 0) * ψ I := rfl

/-- `[Q, a†_p] = w_p a†_p`, `[Q, a_p] = -w_p a_p` -/
theorem charge_ladder (w : ℕ → ℂ) {n p : ℕ} (hp : p < n) (b : Bool) :
    chargeOp w n * ladder b p = ladder b p * chargeOp w n + (if b then w p else -w p) • ladder b p := by
  apply Op.ext'
  intro ψ I
  rw [LinearMap.add_apply, Pi.add_apply, LinearMap.smul_apply, Pi.smul_apply, Module.End.mul_apply, Module.End.mul_apply, chargeOp_apply,
    ladder_apply, ladder_apply, smul_eq_mul]
  by_cases h : I.testBit p = b
  · rw [if_pos h, if_pos h, chargeOp_apply]
    have hd : (∑ q ∈ Finset.range n, if I.testBit q then w q else 0) - (∑ q ∈ Finset.range n, if (flipBit I p).testBit q then w q else 0) =
        if b then w p else -w p := by
      rw [← Finset.sum_sub_distrib, Finset.sum_eq_single p]
      · rw [testBit_flipBit, if_pos rfl, h]; cases b <;> simp
      · intro q _ hq; rw [testBit_flipBit, if_neg hq, sub_self]
      · intro h; exact absurd (Finset.mem_range.2 hp) h
    rw [← hd]; ring
  · rw [if_neg h, if_neg h]; ring

theorem charge_mul {R : Type*} [Ring R] [Algebra ℂ R] {Q A B : R} {x y : ℂ} (hA : Q * A = A * Q + x • A) (hB : Q * B = B * Q + y • B) :
    Q * (A * B) = A * B * Q + (x + y) • (A * B) := by
  rw [← mul_assoc, hA, add_mul, mul_assoc, hB, mul_add, smul_mul_assoc, mul_smul_comm, add_smul, mul_assoc]; abel

theorem charge_prod (w : ℕ → ℂ) {n : ℕ} (b : Bool) : ∀ (l : List ℕ), (∀ p ∈ l, p < n) →
    chargeOp w n * (l.map (ladder b)).prod = (l.map (ladder b)).prod * chargeOp w n + (if b then (l.map w).sum else -(l.map w).sum) • (l.map (ladder b)).prod := by
  intro l
  induction l with
  | nil => intro _; cases b <;> simp
  | cons p l ih =>
    intro h
    rw [List.map_cons, List.prod_cons, charge_mul (charge_ladder w (h p (by simp)) b) (ih (fun q hq => h q (by simp [hq])))]
    congr 2
    cases b <;> simp; ring

theorem charge_string (w : ℕ → ℂ) {n : ℕ} {c a : List ℕ} (hc : ∀ p ∈ c, p < n) (ha : ∀ p ∈ a, p < n) :
    chargeOp w n * fermiString c a = fermiString c a * chargeOp w n + ((c.map w).sum - (a.map w).sum) • fermiString c a := by
  have := charge_mul (charge_prod w true c hc) (charge_prod w false a ha)
  rw [if_pos rfl, if_neg (by simp), ← sub_eq_add_neg] at this
  exact this

/-- a string that creates as much charge as it annihilates commutes with the charge -/
theorem charge_commute (w : ℕ → ℂ) {n : ℕ} {c a : List ℕ} (hc : ∀ p ∈ c, p < n) (ha : ∀ p ∈ a, p < n) (h : (c.map w).sum = (a.map w).sum) :
    Commute (chargeOp w n) (fermiString c a) := by
  show _ * _ = _ * _
  rw [charge_string w hc ha, h, sub_self, zero_smul, add_zero]

end QF
