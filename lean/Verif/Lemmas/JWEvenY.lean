import Verif.Lemmas.JWHerm
import Verif.Lemmas.RealOp

/-!
The Jordan-Wigner transform of a self-adjoint operator with real coefficients has strings with an even number of Y only.
-/
namespace QF
open SQOperator

theorem RealOp.ladder (b : Bool) (p : ℕ) : RealOp (ladder b p) := by
  intro ψ
  funext I
  have h : (starRingEnd ℂ) (fsign I p) = fsign I p := by
    unfold fsign; simp
  show (if I.testBit p = b then fsign I p * (starRingEnd ℂ) (ψ (flipBit I p)) else 0) = (starRingEnd ℂ) (if I.testBit p = b then fsign I p * ψ (flipBit I p) else 0)
  split_ifs
  · rw [map_mul, h]
  · simp

theorem RealOp.prod {l : List Op} (h : ∀ A ∈ l, RealOp A) : RealOp l.prod := by
  induction l with
  | nil => exact RealOp.one
  | cons A l ih => rw [List.prod_cons]; exact (h A (by simp)).mul (ih fun B hB => h B (by simp [hB]))

theorem RealOp.fermiString (c a : List ℕ) : RealOp (fermiString c a) := by
  unfold QF.fermiString
  refine RealOp.mul (RealOp.prod ?_) (RealOp.prod ?_) <;>
  · intro A hA
    obtain ⟨p, -, rfl⟩ := List.mem_map.1 hA
    exact RealOp.ladder _ _

theorem coefS_real {A : SQOperator} (h : ∀ t ∈ A, t.1.im = 0) (s : Key) : (coefS A s).im = 0 := by
  classical
  unfold coefS
  induction A with
  | nil => simp
  | cons t A ih =>
    rw [List.map_cons, List.sum_cons, Complex.add_im, ih fun t ht => h t (by simp [ht]), add_zero]
    split_ifs
    · simpa using h t (by simp)
    · simp

/-- simplification keeps real coefficients real -/
theorem simplify_realCoef (o : DescSort) {A R : SQOperator} (h : ∀ t ∈ A, t.1.im = 0) (e : simplify o A = .ok R) : ∀ t ∈ R, t.1.im = 0 := by
  obtain ⟨A', ea, hA⟩ := SQOperator.canonicalOrder_ok o A
  rw [simplify_eq o A A' ea] at e
  have e := Except.ok.inj e
  have hA' : ∀ t ∈ A', t.1.im = 0 := by
    intro t ht
    obtain ⟨w, hw, hs⟩ := forall2_mem_right hA ht
    rcases hs.coef with e | e <;> rw [e]
    · exact h w hw
    · rw [Complex.neg_im, h w hw, neg_zero]
  intro t ht
  rw [← e] at ht
  obtain ⟨x, hx, rfl⟩ := List.mem_map.1 ht
  rw [buildMap_value (List.mem_filter.1 hx).1]
  exact coefS_real hA' _

theorem realOp_of_real {A : SQOperator} (h : ∀ t ∈ A, t.1.im = 0) : RealOp A.op := by
  induction A with
  | nil => simpa [SQOperator.op] using RealOp.zero
  | cons t A ih =>
    have e : SQOperator.op (t :: A) = t.1 • fermiString t.2.1 t.2.2 + SQOperator.op A := by simp [SQOperator.op]
    rw [e]
    exact RealOp.add (RealOp.smul (RealOp.fermiString _ _) (h t (by simp))) (ih fun t ht => h t (by simp [ht]))

/-- the strings of a real operator with coefficients that are real have an even number of Y -/
theorem evenY_of_realOp {F : QubitOperator} (hF : ∀ t ∈ F, t.2.Canonical) (hn : (F.map Prod.snd).Nodup) (hR : RealOp F.opLR) :
    ∀ t ∈ F, (starRingEnd ℂ) t.1 * (-1) ^ t.2.numY = t.1 := by
  refine recoef_eq hF hn (fun t => (starRingEnd ℂ) t.1 * (-1) ^ t.2.numY) Prod.fst ?_
  have self : recoef F Prod.fst = F := by simp [recoef]
  rw [self]
  have key : ∀ G : QubitOperator, (∀ t ∈ G, t.2.Canonical) → ∀ ψ, (recoef G fun t => (starRingEnd ℂ) t.1 * (-1) ^ t.2.numY).opLR ψ = conjSt (G.opLR (conjSt ψ)) := by
    intro G
    induction G with
    | nil => intro _ ψ; funext I; simp [recoef, QubitOperator.opLR, conjSt]
    | cons t G ih =>
      intro hG ψ
      have s1 : QubitOperator.opLR (t :: G) = t.1 • t.2.opLR + QubitOperator.opLR G := by simp [QubitOperator.opLR]
      have s2 : (recoef (t :: G) fun t => (starRingEnd ℂ) t.1 * (-1) ^ t.2.numY).opLR =
          ((starRingEnd ℂ) t.1 * (-1) ^ t.2.numY) • t.2.opLR + (recoef G fun t => (starRingEnd ℂ) t.1 * (-1) ^ t.2.numY).opLR := by
        simp [recoef, QubitOperator.opLR]
      have hc : t.2.op = t.2.opLR := by
        have := op_eq_opLR_canonical (A := [((1 : ℂ), t.2)]) (by intro u hu; rw [List.mem_singleton.1 hu]; exact hG t (by simp))
        simpa [QubitOperator.op, QubitOperator.opLR] using this
      rw [s1, s2, LinearMap.add_apply, ih (fun t ht => hG t (by simp [ht])), LinearMap.add_apply, LinearMap.smul_apply, LinearMap.smul_apply, ← hc,
        circuit_conj (fun g hg => ((canonical_iff.1 (hG t (by simp))).1 g hg))]
      funext I
      simp only [Pi.add_apply, Pi.smul_apply, conjSt, smul_eq_mul, map_add, map_mul, map_pow, map_neg, map_one, Complex.conj_conj]
      ring
  apply Op.ext'
  intro ψ I
  rw [key F hF, hR, conjSt_conjSt]

/-- the Jordan-Wigner transform of a self-adjoint operator with real coefficients: every string has an even number of Y -/
theorem jw_evenY (o : DescSort) {n : ℕ} {A : SQOperator} (hb : A.Balanced n) (hd : A.Live) (hl : ∀ t ∈ A, t.2.1.length + t.2.2.length ≤ 39)
    (hH : ∀ m, n ≤ m → HermitianOn m A.op) (hr : ∀ t ∈ A, t.1.im = 0) {Q : QubitOperator} {R : SQOperator} (e : jwTransform o A false = .ok (Q, R)) :
    ∀ t ∈ Q, Even t.2.numY := by
  obtain ⟨hQr, -⟩ := jw_real o hb hd hl hH e
  obtain ⟨Q', R', DQ, e1, e2, e3, nQ, hQ, cD, nd, hD⟩ := jw_live o A hd hl
  rw [e1] at e
  have e := Prod.mk.inj (Except.ok.inj e)
  obtain ⟨rfl, rfl⟩ := e
  have hRop := realOp_of_real (simplify_realCoef o hr e2)
  have hFc : ∀ t ∈ Q' ++ DQ, t.2.Canonical := by
    intro t ht
    rcases List.mem_append.1 ht with h | h
    · exact nQ.canonical t h
    · exact cD t h
  have hFop : QubitOperator.opLR (Q' ++ DQ) = R'.op := by
    rw [e3]; simp [QubitOperator.opLR]
  have := evenY_of_realOp hFc nd (hFop ▸ hRop)
  intro t ht
  have h1 := this t (List.mem_append_left _ ht)
  have h0 : t.1 ≠ 0 := by
    intro h0
    have := hQ t ht
    rw [h0] at this; norm_num at this
  rw [Complex.conj_eq_iff_im.2 (hQr t ht).1] at h1
  by_contra ho
  rw [(Nat.not_even_iff_odd.1 ho).neg_one_pow, mul_neg_one] at h1
  exact h0 (self_eq_neg.1 h1.symm)

end QF
