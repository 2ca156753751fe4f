import Verif.Spec.Inner
import Verif.Lemmas.MakeGate
import Mathlib.Algebra.BigOperators.Fin
import Mathlib.Algebra.BigOperators.Field
import Mathlib.LinearAlgebra.Matrix.DotProduct

namespace QF

open Finset

theorem sum_flip {n t : ℕ} (ht : t < n) (F : ℕ → ℂ) :
    ∑ I ∈ range (2 ^ n), F (flipBit I t) = ∑ I ∈ range (2 ^ n), F I := by
  apply Finset.sum_nbij' (fun I => flipBit I t) (fun I => flipBit I t)
  · intro I hI; simpa [flipBit_lt ht] using hI
  · intro I hI; simpa [flipBit_lt ht] using hI
  · intro I _; simp
  · intro I _; simp
  · intro I _; rfl

theorem sum_setBit {n t : ℕ} (ht : t < n) (F : ℕ → ℂ) :
    ∑ I ∈ range (2 ^ n), (F (setBit I t false) + F (setBit I t true)) = 2 * ∑ I ∈ range (2 ^ n), F I := by
  have : ∀ I, F (setBit I t false) + F (setBit I t true) = F I + F (flipBit I t) := by
    intro I
    rw [flipBit_eq]
    cases h : I.testBit t
    · rw [setBit_eq_self h]; rfl
    · rw [setBit_eq_self h, add_comm]; rfl
  simp only [this, Finset.sum_add_distrib, sum_flip ht]
  ring

theorem sum_setBit2 {n t c : ℕ} (ht : t < n) (hc : c < n) (F : ℕ → ℂ) :
    ∑ I ∈ range (2 ^ n), (F (setBit (setBit I c false) t false) + F (setBit (setBit I c false) t true)
      + F (setBit (setBit I c true) t false) + F (setBit (setBit I c true) t true))
      = 4 * ∑ I ∈ range (2 ^ n), F I := by
  have h1 := sum_setBit hc (fun I => F (setBit I t false) + F (setBit I t true))
  have h2 := sum_setBit ht F
  rw [h2] at h1
  simp only [← add_assoc] at h1
  rw [h1]; ring

theorem unitary_dot {k : ℕ} (M : Matrix (Fin k) (Fin k) ℂ) (h : M.conjTranspose * M = 1) (u v : Fin k → ℂ) :
    star (M.mulVec u) ⬝ᵥ M.mulVec v = star u ⬝ᵥ v := by
  rw [Matrix.star_mulVec, ← Matrix.dotProduct_mulVec, Matrix.mulVec_mulVec, h, Matrix.one_mulVec]

/-- a unitary gate matrix preserves inner products on any register containing its qubits -/
theorem inner_matOp {n t c : ℕ} (ht : t < n) (hc : c < n) {m : Matrix (Fin 4) (Fin 4) ℂ}
    (hu : MatUnitary t c m) (φ ψ : St) : inner n (matOp t c m φ) (matOp t c m ψ) = inner n φ ψ := by
  unfold inner matOp
  unfold MatUnitary at hu
  by_cases h : t = c
  · rw [if_pos h] at hu ⊢
    have e := sum_setBit ht (fun I => (starRingEnd ℂ) (op1 t (toM2 m) φ I) * op1 t (toM2 m) ψ I)
    have e' := sum_setBit ht (fun I => (starRingEnd ℂ) (φ I) * ψ I)
    have key : ∀ I, (starRingEnd ℂ) (op1 t (toM2 m) φ (setBit I t false)) * op1 t (toM2 m) ψ (setBit I t false)
        + (starRingEnd ℂ) (op1 t (toM2 m) φ (setBit I t true)) * op1 t (toM2 m) ψ (setBit I t true)
        = (starRingEnd ℂ) (φ (setBit I t false)) * ψ (setBit I t false)
        + (starRingEnd ℂ) (φ (setBit I t true)) * ψ (setBit I t true) := by
      intro I
      have := unitary_dot (blk2 m) hu ![φ (setBit I t false), φ (setBit I t true)]
        ![ψ (setBit I t false), ψ (setBit I t true)]
      simp only [dotProduct, Matrix.mulVec, Fin.sum_univ_two, Pi.star_apply, RCLike.star_def] at this
      simp only [op1_apply, testBit_setBit, if_true, setBit_setBit, toM2, ix1]
      simpa [blk2] using this
    simp only [key] at e
    rw [e'] at e
    exact (mul_left_cancel₀ (by norm_num) e).symm
  · rw [if_neg h] at hu ⊢
    have e := sum_setBit2 ht hc (fun I => (starRingEnd ℂ) (op2 t c (toM4 m) φ I) * op2 t c (toM4 m) ψ I)
    have e' := sum_setBit2 ht hc (fun I => (starRingEnd ℂ) (φ I) * ψ I)
    have es : ∀ I x y x' y', setBit (setBit (setBit (setBit I c x) t y) c x') t y' = setBit (setBit I c x') t y' := by
      intro I x y x' y'
      rw [setBit_comm (setBit I c x) h y x', setBit_setBit, setBit_setBit]
    set S : ℕ → Bool → Bool → ℕ := fun I x y => setBit (setBit I c x) t y with hS
    have val : ∀ (χ : St) I x y, op2 t c (toM4 m) χ (S I x y) =
        m (ix2 x y) 0 * χ (S I false false) + m (ix2 x y) 1 * χ (S I false true)
        + m (ix2 x y) 2 * χ (S I true false) + m (ix2 x y) 3 * χ (S I true true) := by
      intro χ I x y
      simp only [hS, op2_apply, es, testBit_setBit, if_true, Ne.symm h, if_false, toM4]
      rfl
    have key : ∀ I, (starRingEnd ℂ) (op2 t c (toM4 m) φ (S I false false)) * op2 t c (toM4 m) ψ (S I false false)
        + (starRingEnd ℂ) (op2 t c (toM4 m) φ (S I false true)) * op2 t c (toM4 m) ψ (S I false true)
        + (starRingEnd ℂ) (op2 t c (toM4 m) φ (S I true false)) * op2 t c (toM4 m) ψ (S I true false)
        + (starRingEnd ℂ) (op2 t c (toM4 m) φ (S I true true)) * op2 t c (toM4 m) ψ (S I true true)
        = (starRingEnd ℂ) (φ (S I false false)) * ψ (S I false false)
        + (starRingEnd ℂ) (φ (S I false true)) * ψ (S I false true)
        + (starRingEnd ℂ) (φ (S I true false)) * ψ (S I true false)
        + (starRingEnd ℂ) (φ (S I true true)) * ψ (S I true true) := by
      intro I
      have := unitary_dot m hu ![φ (S I false false), φ (S I false true), φ (S I true false), φ (S I true true)]
        ![ψ (S I false false), ψ (S I false true), ψ (S I true false), ψ (S I true true)]
      simp only [dotProduct, Matrix.mulVec, Fin.sum_univ_four, Pi.star_apply, RCLike.star_def] at this
      simp only [val]
      simpa [ix2] using this
    simp only [hS] at key
    simp only [key] at e
    rw [e'] at e
    exact (mul_left_cancel₀ (by norm_num) e).symm

theorem matOp_onReg {n t c : ℕ} (ht : t < n) (hc : c < n) (m : Matrix (Fin 4) (Fin 4) ℂ) {ψ : St}
    (h : OnReg n ψ) : OnReg n (matOp t c m ψ) := by
  intro I hI
  have hs : ∀ {p} (_ : p < n) {J} (_ : 2 ^ n ≤ J) b, 2 ^ n ≤ setBit J p b := fun {p} hp {J} hJ b => by
    by_contra h; exact absurd ((setBit_lt hp b).1 (Nat.lt_of_not_le h)) (by omega)
  unfold matOp; split
  · rw [op1_apply, h _ (hs ht hI _), h _ (hs ht hI _)]; simp
  · rw [op2_apply, h _ (hs ht (hs hc hI _) _), h _ (hs ht (hs hc hI _) _), h _ (hs ht (hs hc hI _) _),
      h _ (hs ht (hs hc hI _) _)]; simp

end QF
