import Verif.Spec.UCC
import Verif.Lemmas.SkewExp
import Verif.Lemmas.ApplyErr
import Mathlib.Analysis.Calculus.Deriv.Star
import Mathlib.Analysis.Calculus.Deriv.Add
import Mathlib.Analysis.Calculus.Deriv.Mul

namespace QF

theorem onReg_expand {n : ℕ} {φ : St} (h : OnReg n φ) (A : Op) (I : ℕ) :
    A φ I = ∑ J ∈ Finset.range (2 ^ n), φ J * A (Pi.single J 1) I := by
  have e : φ = ∑ J ∈ Finset.range (2 ^ n), φ J • (Pi.single J 1 : St) := by
    funext I
    rw [Finset.sum_apply]
    simp only [Pi.smul_apply, smul_eq_mul, Pi.single_apply, mul_ite, mul_one, mul_zero, Finset.sum_ite_eq, Finset.mem_range]
    split_ifs with hI
    · rfl
    · exact h I (Nat.le_of_not_lt hI)
  conv_lhs => rw [e]
  rw [map_sum, Finset.sum_apply]
  refine Finset.sum_congr rfl fun J _ => ?_
  rw [map_smul, Pi.smul_apply, smul_eq_mul]

theorem deriv_lin {n : ℕ} (A : Op) {f : ℝ → St} {f' : St} {s : ℝ} (hf : ∀ x, OnReg n (f x)) (hf' : OnReg n f')
    (h : ∀ I, HasDerivAt (fun x => f x I) (f' I) s) (I : ℕ) : HasDerivAt (fun x => A (f x) I) (A f' I) s := by
  have e : (fun x => A (f x) I) = fun x => ∑ J ∈ Finset.range (2 ^ n), f x J * A (Pi.single J 1) I :=
    funext fun x => onReg_expand (hf x) A I
  rw [e, onReg_expand hf' A I]
  exact HasDerivAt.fun_sum fun J _ => (h J).mul_const _

theorem deriv_energy {n : ℕ} {H : Op} (hH : HermitianOn n H) {f : ℝ → St} {f' : St} {s : ℝ} (hf : ∀ x, OnReg n (f x)) (hf' : OnReg n f')
    (h : ∀ I, HasDerivAt (fun x => f x I) (f' I) s) :
    HasDerivAt (fun x => energy n H (f x)) (2 * (inner n (H (f s)) f').re) s := by
  have h1 : HasDerivAt (fun x => inner n (f x) (H (f x))) (inner n f' (H (f s)) + inner n (f s) (H f')) s := by
    unfold inner
    rw [← Finset.sum_add_distrib]
    refine HasDerivAt.fun_sum fun I _ => ?_
    exact ((h I).star).mul (deriv_lin H hf hf' h I)
  have h2 := Complex.reCLM.hasFDerivAt.comp_hasDerivAt s h1
  convert! h2 using 1
  have e : inner n f' (H (f s)) = (starRingEnd ℂ) (inner n (H (f s)) f') := by
    unfold inner
    rw [map_sum]
    refine Finset.sum_congr rfl fun I _ => ?_
    rw [map_mul, Complex.conj_conj, mul_comm]
  simp only [Complex.reCLM_apply, Complex.add_re]
  rw [e, hH, Complex.conj_re]; ring

theorem uccOp_cons (V : ℝ → Op) (Vs : List (ℝ → Op)) (t : ℝ) (ts : List ℝ) : uccOp (V :: Vs) (t :: ts) = uccOp Vs ts * V t := rfl

theorem uccOp_nil (ts : List ℝ) : uccOp [] ts = 1 := by simp [uccOp, applyInOrder]

theorem uccOp_append {Vs Vs' : List (ℝ → Op)} {ts ts' : List ℝ} (h : Vs.length = ts.length) :
    uccOp (Vs ++ Vs') (ts ++ ts') = uccOp Vs' ts' * uccOp Vs ts := by
  induction Vs generalizing ts with
  | nil =>
    obtain rfl := List.length_eq_zero_iff.1 h.symm
    rw [List.nil_append, List.nil_append, uccOp_nil, mul_one]
  | cons V Vs ih =>
    cases ts with
    | nil => cases h
    | cons t ts => rw [List.cons_append, List.cons_append, uccOp_cons, uccOp_cons, ih (by simpa using h), mul_assoc]

theorem uccOp_reg {n : ℕ} {Vs : List (ℝ → Op)} (h : ∀ V ∈ Vs, ∃ K, Flow n K V) (ts : List ℝ) {ψ : St} (hψ : OnReg n ψ) : OnReg n (uccOp Vs ts ψ) := by
  induction Vs generalizing ts ψ with
  | nil => rw [uccOp_nil]; exact hψ
  | cons V Vs ih =>
    cases ts with
    | nil => exact hψ
    | cons t ts =>
      rw [uccOp_cons, Module.End.mul_apply]
      obtain ⟨K, hK⟩ := h V (by simp)
      exact ih (fun V hV => h V (by simp [hV])) ts (hK.reg t ψ hψ)

theorem uccOp_unitary {n : ℕ} {Vs : List (ℝ → Op)} (h : ∀ V ∈ Vs, ∃ K, Flow n K V) (ts : List ℝ) (φ ψ : St) :
    inner n (uccOp Vs ts φ) (uccOp Vs ts ψ) = inner n φ ψ := by
  induction Vs generalizing ts φ ψ with
  | nil => rw [uccOp_nil]; rfl
  | cons V Vs ih =>
    cases ts with
    | nil => rfl
    | cons t ts =>
      rw [uccOp_cons, Module.End.mul_apply, Module.End.mul_apply, ih (fun V hV => h V (by simp [hV]))]
      obtain ⟨K, hK⟩ := h V (by simp)
      exact hK.unitary t φ ψ

/-- the derivative of the energy of a disentangled ansatz with respect to one amplitude -/
theorem grad_formula {n : ℕ} {H : Op} (hH : HermitianOn n H) {Φ : St} (hΦ : OnReg n Φ) {pre post : List (ℝ → Op)} {V : ℝ → Op} {K : Op}
    {tpre tpost : List ℝ} {t : ℝ} (hl : pre.length = tpre.length) (hpre : ∀ V ∈ pre, ∃ K, Flow n K V) (hpost : ∀ V ∈ post, ∃ K, Flow n K V)
    (hV : Flow n K V) {σ : St} (hσ : uccOp post tpost σ = H (uccOp (pre ++ V :: post) (tpre ++ t :: tpost) Φ)) :
    HasDerivAt (fun s => uccEnergy n H Φ (pre ++ V :: post) (tpre ++ s :: tpost)) (2 * (inner n σ (K (V t (uccOp pre tpre Φ)))).re) t := by
  have hχ : OnReg n (uccOp pre tpre Φ) := uccOp_reg hpre _ hΦ
  have hU : ∀ s, uccOp (pre ++ V :: post) (tpre ++ s :: tpost) Φ = uccOp post tpost (V s (uccOp pre tpre Φ)) := by
    intro s; rw [uccOp_append hl, uccOp_cons]; rfl
  have := deriv_energy (n := n) hH (f := fun s => uccOp post tpost (V s (uccOp pre tpre Φ))) (f' := uccOp post tpost (K (V t (uccOp pre tpre Φ)))) (s := t)
    (fun s => uccOp_reg hpost _ (hV.reg s _ hχ)) (uccOp_reg hpost _ (hV.regK _ (hV.reg t _ hχ)))
    (deriv_lin (n := n) _ (fun s => hV.reg s _ hχ) (hV.regK _ (hV.reg t _ hχ)) (fun I => hV.deriv t _ I))
  unfold uccEnergy
  simp only [hU] at hσ ⊢
  rw [← hσ, uccOp_unitary hpost] at this
  exact this

end QF
