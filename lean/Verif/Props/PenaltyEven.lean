import Verif.Props.Penalty
import Verif.Props.Commutator
import Verif.Props.UccGradient3
import Verif.Props.Symmetry
import Verif.Lemmas.JWEvenY
import Verif.Props.Builds
import Verif.Props.AlgorithmArgs
import Verif.Props.PqeRun

/-!
C115: adding penalty terms keeps a Hamiltonian real: real coefficients on strings of the register with an even number of Y.
-/
namespace QF

open QubitOperator (IsPauli Normal)

/-- specification: an operator on `n` qubits with a real matrix, written with real coefficients: every string has an even number of Y -/
def RealStrings (n : ℕ) (H : QubitOperator) : Prop := ∀ t ∈ H, t.1.im = 0 ∧ t.2.PauliString n ∧ Even t.2.numY

/-- specification: the form in which the constructors return operators: distinct canonical strings, no coefficient below the threshold -/
structure Tidy (H : QubitOperator) : Prop where
  canonical : ∀ t ∈ H, t.2.Canonical
  distinct : (H.map Prod.snd).Nodup
  large : ∀ t ∈ H, 1e-12 < ‖t.1‖

namespace RealStrings

variable {n : ℕ} {A B : QubitOperator}

theorem append (hA : RealStrings n A) (hB : RealStrings n B) : RealStrings n (A ++ B) := fun t ht => by
  rcases List.mem_append.1 ht with h | h
  · exact hA t h
  · exact hB t h

theorem mono {m : ℕ} (h : n ≤ m) (hA : RealStrings n A) : RealStrings m A := fun t ht => by
  obtain ⟨h1, h2, h3⟩ := hA t ht
  exact ⟨h1, ⟨h2.gates, h2.distinct, fun g hg => ⟨lt_of_lt_of_le (h2.fits g hg).1 h, lt_of_lt_of_le (h2.fits g hg).2 h⟩⟩, h3⟩

theorem isPauli (hA : RealStrings n A) : A.IsPauli := isPauli_of_circuits fun t ht => (hA t ht).2.1.gates

theorem op_eq (hA : RealStrings n A) : A.op = A.opLR :=
  op_eq_opLR_of_distinct hA.isPauli fun t ht => List.pairwise_map.1 (hA t ht).2.1.distinct

theorem real (hA : RealStrings n A) : RealOp A.opLR := hA.op_eq ▸ realOp_of_even hA

theorem herm (hA : RealStrings n A) (m : ℕ) (hm : n ≤ m) : HermitianOn m A.opLR :=
  hA.op_eq ▸ hermitian_of_real fun t ht => ⟨(hA.mono hm t ht).1, (hA.mono hm t ht).2.1⟩

theorem acts (hA : RealStrings n A) : ActsBelow n A.opLR := acts_operator hA.isPauli fun t ht => (hA t ht).2.1.fits

end RealStrings

/-- a list of distinct canonical strings whose operator is real, self-adjoint and on the register -/
theorem strings_of_real {n : ℕ} {F : QubitOperator} (hF : ∀ t ∈ F, t.2.Canonical) (hn : (F.map Prod.snd).Nodup) (hR : RealOp F.opLR)
    (hH : ∀ m, n ≤ m → HermitianOn m F.opLR) (hact : ActsBelow n F.opLR) : ∀ t ∈ F, t.1 ≠ 0 → t.1.im = 0 ∧ t.2.PauliString n ∧ Even t.2.numY := by
  have hfit := support_strings hF hn hact
  have hconj : ∀ t ∈ F, (starRingEnd ℂ) t.1 = t.1 := by
    refine recoef_eq hF hn (fun t => (starRingEnd ℂ) t.1) Prod.fst ?_
    have self : recoef F Prod.fst = F := by simp [recoef]
    rw [self]
    refine adj_unique (n := n) (A := F.opLR) (fun m hm => ?_) (fun m hm => hH m hm)
    have key : ∀ F : QubitOperator, (∀ t ∈ F, t.2.Canonical) → (∀ t ∈ F, t.1 ≠ 0 → ∀ g ∈ t.2, g.target < n) →
        IsAdj m F.opLR (recoef F fun t => (starRingEnd ℂ) t.1).opLR := ?_
    · exact key F hF hfit
    intro F
    induction F with
    | nil => intro _ _ φ ψ; simp [recoef, QubitOperator.opLR, inner]
    | cons t F ih =>
      intro hFc hfit
      have s1 : QubitOperator.opLR (t :: F) = t.1 • t.2.opLR + QubitOperator.opLR F := by simp [QubitOperator.opLR]
      have s2 : (recoef (t :: F) fun t => (starRingEnd ℂ) t.1).opLR = (starRingEnd ℂ) t.1 • t.2.opLR + (recoef F fun t => (starRingEnd ℂ) t.1).opLR := by
        simp [recoef, QubitOperator.opLR]
      rw [s1, s2]
      refine IsAdj.addOps ?_ (ih (fun t ht => hFc t (by simp [ht])) (fun t ht => hfit t (by simp [ht])))
      by_cases h0 : t.1 = 0
      · rw [h0, zero_smul, map_zero, zero_smul]
        intro φ ψ; simp [inner]
      · exact (IsAdj.canonical (hFc t (by simp)) fun g hg => lt_of_lt_of_le (hfit t (by simp) h0 g hg) hm).smul t.1
  intro t ht h0
  refine ⟨Complex.conj_eq_iff_im.1 (hconj t ht), QiteAlg.canonical_pauliString (hF t ht) (hfit t ht h0), ?_⟩
  have h1 := evenY_of_realOp hF hn hR t ht
  rw [hconj t ht] at h1
  by_contra ho
  rw [(Nat.not_even_iff_odd.1 ho).neg_one_pow, mul_neg_one] at h1
  exact h0 (self_eq_neg.1 h1.symm)

theorem append_op (A B : QubitOperator) : QubitOperator.opLR (A ++ B) = A.opLR + QubitOperator.opLR B := by simp [QubitOperator.opLR]

/-- simplifying terms whose sum is real, self-adjoint and on the register -/
theorem simplify_realStrings {n : ℕ} {A R : QubitOperator} (hA : A.IsPauli) (hR : RealOp A.opLR) (hH : ∀ m, n ≤ m → HermitianOn m A.opLR) (hact : ActsBelow n A.opLR)
    (e : A.simplify = .ok R) : RealStrings n R ∧ Tidy R := by
  obtain ⟨R', D, e1, h2, nR, cD, nd, hl, hs, _⟩ := C20_simplify A hA
  rw [e] at e1
  obtain rfl := Except.ok.inj e1
  have hFc : ∀ t ∈ R ++ D, t.2.Canonical := by
    intro t ht
    rcases List.mem_append.1 ht with h | h
    · exact nR.canonical t h
    · exact cD t h
  rw [← append_op] at h2
  rw [h2] at hR hH hact
  refine ⟨fun t ht => ?_, nR.canonical, ?_, hl⟩
  · have h0 : t.1 ≠ 0 := by
      intro h0
      have := hl t ht
      rw [h0] at this; norm_num at this
    exact strings_of_real hFc nd hR hH hact t (List.mem_append_left _ ht) h0
  · rw [List.map_append] at nd
    exact nd.of_append_left

theorem herm_add {n : ℕ} {A B : Op} (hA : HermitianOn n A) (hB : HermitianOn n B) : HermitianOn n (A + B) := IsAdj.addOps hA hB

theorem smul_one_comm {R : Type*} [Ring R] [Algebra ℂ R] (c : ℂ) (A : R) : c • (1 : R) * A = A * c • (1 : R) := by
  rw [smul_mul_assoc, one_mul, mul_smul_comm, mul_one]

/-- the square of `O - e` that the code computes: the terms dropped by the first simplification are a multiple of the identity -/
theorem penaltyTerm_real {n : ℕ} {O P : QubitOperator} (hO : RealStrings n O) (hT : Tidy O) (e s : ℝ) (h : penaltyTerm O e s = .ok P) : RealStrings n P := by
  have ht : (QubitOperator.addTerm (QubitOperator.addOp [] O) (-(e : ℂ)) []) = O ++ [(-(e : ℂ), [])] := by
    rw [QubitOperator.addTerm, addOp_eq, List.nil_append]
  unfold penaltyTerm at h
  simp only [ht] at h
  rw [addOp_eq, List.nil_append] at h
  have hI : RealStrings n [(-(e : ℂ), ([] : Circuit))] := by
    intro t ht
    rw [List.mem_singleton.1 ht]
    exact ⟨by simp, ⟨by simp, by simp, by intro g hg; simp at hg⟩, by simp [Circuit.numY]⟩
  have hA := hO.append hI
  generalize hAe : O ++ [(-(e : ℂ), ([] : Circuit))] = A at h hA
  unfold QubitOperator.operatorProduct at h
  simp only [↓reduceIte] at h
  obtain ⟨Q, h3, h⟩ := bindOk h
  obtain ⟨S, h1, h3⟩ := bindOk h3
  obtain ⟨S', D, e1, h2, nS, cD, nd, hl, hs, hlen⟩ := C20_simplify A hA.isPauli
  rw [h1] at e1
  obtain rfl := Except.ok.inj e1
  have hSr := (simplify_realStrings hA.isPauli hA.real hA.herm hA.acts h1).1
  -- the dropped terms are multiples of the identity
  have hD : ∃ c : ℂ, QubitOperator.opLR D = c • (1 : Op) := by
    have hAc : ∀ t ∈ A, t.2.Canonical := by
      rw [← hAe]
      intro t ht
      rcases List.mem_append.1 ht with h | h
      · exact hT.canonical t h
      · rw [List.mem_singleton.1 h]; exact (canonical_iff.2 ⟨by simp, by simp⟩)
    have hFc : ∀ t ∈ S ++ D, t.2.Canonical := by
      intro t ht
      rcases List.mem_append.1 ht with h | h
      · exact nS.canonical t h
      · exact cD t h
    have h2' := h2
    rw [← append_op] at h2'
    have hz : ∀ t ∈ D, t.2 ≠ [] → t.1 = 0 := by
      intro t ht hne
      have c1 := coefN_determined hAc hFc h2' t.2
      rw [coefN_mem nd (List.mem_append_right _ ht)] at c1
      have c2 : coefN A t.2 = coefN O t.2 := by
        rw [← hAe]
        classical
        unfold coefN
        rw [List.map_append, List.sum_append]
        simp [Ne.symm hne]
      rw [c2] at c1
      by_cases hm : t.2 ∈ O.map Prod.snd
      · obtain ⟨u, hu, hut⟩ := List.mem_map.1 hm
        have c3 := coefN_mem hT.distinct hu
        rw [hut] at c3
        have c4 := hT.large u hu
        rw [← c3, c1] at c4
        exact absurd (hs t ht) (not_le.2 c4)
      · rw [coefN_not_mem hm] at c1
        exact c1.symm
    clear h2 h2' hFc hAc nd hs cD hlen
    induction D with
    | nil => exact ⟨0, by simp [QubitOperator.opLR]⟩
    | cons t D ih =>
      obtain ⟨c, hc⟩ := ih fun u hu => hz u (by simp [hu])
      have s1 : QubitOperator.opLR (t :: D) = t.1 • t.2.opLR + QubitOperator.opLR D := by simp [QubitOperator.opLR]
      rw [s1, hc]
      by_cases hne : t.2 = []
      · refine ⟨t.1 + c, ?_⟩
        have : Circuit.opLR ([] : Circuit) = 1 := rfl
        rw [hne, this, add_smul]
      · refine ⟨c, ?_⟩
        rw [hz t (by simp) hne, zero_smul, zero_add]
  obtain ⟨c, hc⟩ := hD
  have hAS : A.opLR = S.opLR + c • (1 : Op) := by rw [h2, hc]
  have hprod : QubitOperator.opLR (S.products A) = S.opLR * A.opLR := opLR_products S A
  have hQ : RealStrings n Q := by
    refine (simplify_realStrings (products_isPauli hSr.isPauli hA.isPauli) ?_ ?_ ?_ h3).1 <;> rw [hprod]
    · exact hSr.real.mul hA.real
    · intro m hm
      have h1 : IsAdj m (S.opLR * A.opLR) (A.opLR * S.opLR) := IsAdj.mul (A := S.opLR) (A' := S.opLR) (B := A.opLR) (B' := A.opLR) (hSr.herm m hm) (hA.herm m hm)
      have h2 : A.opLR * S.opLR = S.opLR * A.opLR := by
        rw [hAS, add_mul, mul_add]
        exact congrArg _ (smul_one_comm c _)
      rw [h2] at h1
      exact h1
    · exact hSr.acts.mul hA.acts
  cases h
  intro t ht
  obtain ⟨u, hu, rfl⟩ := List.mem_map.1 ht
  obtain ⟨q1, q2⟩ := hQ u hu
  exact ⟨by simp [q1], q2⟩

/-! ### what is returned by the constructors of operators -/

theorem simplify_tidy {F Q : QubitOperator} (e : F.simplify = .ok Q) (hN : Q.Normal) : Tidy Q := by
  refine ⟨hN.canonical, Normal.nodup hN, fun t ht => ?_⟩
  unfold QubitOperator.simplify at e
  obtain ⟨A, -, e⟩ := bindOk e
  simp only [if_true] at e
  cases e
  obtain ⟨u, hu, rfl⟩ := List.mem_map.1 ht
  exact of_decide_eq_true (List.mem_filter.1 hu).2

theorem Tidy.realStrings {n : ℕ} {Q : QubitOperator} (hT : Tidy Q) (hR : RealOp Q.opLR) (hH : ∀ m, n ≤ m → HermitianOn m Q.opLR) (hact : ActsBelow n Q.opLR) :
    RealStrings n Q := fun t ht => strings_of_real hT.canonical hT.distinct hR hH hact t ht (by
  intro h0
  have := hT.large t ht
  rw [h0] at this; norm_num at this)

theorem RealOp.finset {ι : Type} (K : Finset ι) (F : ι → Op) (h : ∀ i ∈ K, RealOp (F i)) : RealOp (∑ i ∈ K, F i) := by
  classical
  induction K using Finset.induction_on with
  | empty => simpa using RealOp.zero
  | insert a K ha ih =>
    rw [Finset.sum_insert ha]
    exact (h a (by simp)).add (ih fun i hi => h i (by simp [hi]))

theorem sp_real (k : ℕ) : RealOp (SpOp k) := .finset _ _ fun _ _ => (RealOp.ladder true _).mul (RealOp.ladder false _)
theorem sm_real (k : ℕ) : RealOp (SmOp k) := .finset _ _ fun _ _ => (RealOp.ladder true _).mul (RealOp.ladder false _)
theorem sz_real (k : ℕ) : RealOp (SzOp k) := by
  rw [SzOp_eq]
  exact .finset _ _ fun _ _ => (((RealOp.ladder true _).mul (RealOp.ladder false _)).smul (by norm_num)).add (((RealOp.ladder true _).mul (RealOp.ladder false _)).smul (by norm_num))

theorem spSm_adj_on {k m : ℕ} (hm : 2 * k ≤ m) : IsAdj m (SpOp k) (SmOp k) := by
  unfold SpOp SmOp
  refine IsAdj.finset _ _ _ fun i hi => ?_
  have hi := Finset.mem_range.1 hi
  exact IsAdj.mul (IsAdj.ladder (by omega) true) (IsAdj.ladder (by omega) false)

theorem sz_penalty (o : SQOperator.DescSort) (k : ℕ) : ∃ Q, totalSpinZ o (2 * k) = .ok Q ∧ Q.opLR = SzOp k ∧ RealStrings (2 * k) Q ∧ Tidy Q := by
  obtain ⟨Q, h1, h2, -, h3, -, h4⟩ := sz_core o (2 * k)
  rw [show (2 * k + 1) / 2 = k by omega] at h2
  have hP : Q.IsPauli := isPauli_of_circuits fun t ht g hg => (h3 t ht).pauli g hg
  obtain ⟨R, _, e1, _, nR, _⟩ := C20_simplify Q hP
  rw [h4] at e1
  obtain rfl := Except.ok.inj e1
  have hT := simplify_tidy h4 nR
  exact ⟨Q, h1, h2, hT.realStrings (h2 ▸ sz_real k) (fun m _ => h2 ▸ sz_adj m k) (h2 ▸ sz_acts k), hT⟩

theorem s2_penalty (o : SQOperator.DescSort) (k : ℕ) : ∃ Q, totalSpinSquared o (2 * k) = .ok Q ∧ Q.opLR = S2Op k ∧ RealStrings (2 * k) Q ∧ Tidy Q := by
  obtain ⟨Q, h1, h2, -, nQ, -, F, h4⟩ := s2_core o (2 * k)
  rw [show (2 * k + 1) / 2 = k by omega] at h2
  have hT := simplify_tidy h4 nQ
  refine ⟨Q, h1, h2, hT.realStrings ?_ (fun m hm => ?_) (h2 ▸ s2_acts k), hT⟩
  · rw [h2, ← spin_squared_identity]
    exact (((sm_real k).mul (sp_real k)).add (sz_real k)).add ((sz_real k).mul (sz_real k))
  · rw [h2, ← spin_squared_identity]
    have h := spSm_adj_on hm
    exact IsAdj.addOps (IsAdj.addOps (IsAdj.mul h.symm h) (sz_adj _ k)) (IsAdj.mul (sz_adj _ k) (sz_adj _ k))

theorem jw_penalty (o : SQOperator.DescSort) {n : ℕ} {A : SQOperator} (hb : A.Balanced n) (hd : A.Live) (hl : ∀ t ∈ A, t.2.1.length + t.2.2.length ≤ 39)
    (hH : ∀ m, n ≤ m → HermitianOn m A.op) (hr : ∀ t ∈ A, t.1.im = 0) {Q : QubitOperator} {R : SQOperator} (e : SQOperator.jwTransform o A false = .ok (Q, R)) :
    RealStrings n Q ∧ Tidy Q := by
  obtain ⟨hQ, -⟩ := jw_real o hb hd hl hH e
  have hY := jw_evenY o hb hd hl hH hr e
  obtain ⟨Q', R', DQ, e1, e2, e3, nQ, hL, -⟩ := jw_live o A hd hl
  rw [e1] at e
  have e := Prod.mk.inj (Except.ok.inj e)
  obtain ⟨rfl, rfl⟩ := e
  exact ⟨fun t ht => ⟨(hQ t ht).1, (hQ t ht).2, hY t ht⟩, nQ.canonical, Normal.nodup nQ, hL⟩

/-! ### the penalty Hamiltonian -/

/-- C115: the penalty Hamiltonian of a real Hamiltonian and of real penalty operators is real: its coefficients are real and every string is on the register and
has an even number of Y. -/
theorem C115_penalty {n : ℕ} {H R : QubitOperator} {ops : List QubitOperator} {eigs scales : List ℝ} (hH : RealStrings n H) (hO : ∀ A ∈ ops, RealStrings n A ∧ Tidy A)
    (h : penaltyHamiltonian false H ops eigs scales = .ok R) : RealStrings n R ∧ Tidy R := by
  unfold penaltyHamiltonian at h
  rw [if_neg (by simp)] at h
  split_ifs at h with hl
  obtain ⟨P, e1, h⟩ := bindOk h
  have hP : ∀ (l : List ℕ) (A P : QubitOperator), RealStrings n A → l.foldlM (fun (pens : QubitOperator) i => (do
      let op ← pyIndex ops i
      let e ← pyIndex eigs i
      let s ← pyIndex scales i
      let pen ← penaltyTerm op e s
      (pens.addOp pen).simplify : Except Exc QubitOperator)) A = .ok P → RealStrings n P := by
    intro l
    induction l with
    | nil => intro A P hA h; cases h; exact hA
    | cons i l ih =>
      intro A P hA h
      rw [List.foldlM_cons] at h
      obtain ⟨B, e, h⟩ := bindOk h
      refine ih B P ?_ h
      obtain ⟨op, f1, e⟩ := bindOk e
      obtain ⟨x, f2, e⟩ := bindOk e
      obtain ⟨s, f3, e⟩ := bindOk e
      obtain ⟨pen, f4, e⟩ := bindOk e
      have hop : op ∈ ops := by
        unfold pyIndex at f1
        cases hi : ops[i]? with
        | none => rw [hi] at f1; cases f1
        | some y => rw [hi] at f1; cases f1; exact List.mem_of_getElem? hi
      rw [addOp_eq] at e
      have hB := hA.append (penaltyTerm_real (hO op hop).1 (hO op hop).2 x s f4)
      exact (simplify_realStrings hB.isPauli hB.real hB.herm hB.acts e).1
  rw [addOp_eq, addOp_eq, List.nil_append] at h
  have hB := hH.append (hP _ _ _ (fun t ht => by simp at ht) e1)
  exact simplify_realStrings hB.isPauli hB.real hB.herm hB.acts h

/-- C115: `S_z` and `S²` are real operators of that form, and so is the Jordan-Wigner transform of every self-adjoint operator with real coefficients (the number
operator, for one). -/
theorem C115_spin (o : SQOperator.DescSort) (k : ℕ) :
    (∃ Q, totalSpinZ o (2 * k) = .ok Q ∧ RealStrings (2 * k) Q ∧ Tidy Q) ∧ (∃ Q, totalSpinSquared o (2 * k) = .ok Q ∧ RealStrings (2 * k) Q ∧ Tidy Q) ∧
    ∀ (n : ℕ) (A : SQOperator), A.Balanced n → A.Live → (∀ t ∈ A, t.2.1.length + t.2.2.length ≤ 39) → (∀ m, n ≤ m → HermitianOn m A.op) → (∀ t ∈ A, t.1.im = 0) →
      ∀ Q R, SQOperator.jwTransform o A false = .ok (Q, R) → RealStrings n Q ∧ Tidy Q := by
  refine ⟨?_, ?_, fun n A h1 h2 h3 h4 h5 Q R e => jw_penalty o h1 h2 h3 h4 h5 e⟩
  · obtain ⟨Q, h1, -, h2, h3⟩ := sz_penalty o k; exact ⟨Q, h1, h2, h3⟩
  · obtain ⟨Q, h1, -, h2, h3⟩ := s2_penalty o k; exact ⟨Q, h1, h2, h3⟩

theorem RealStrings.restrict {m n : ℕ} {A : QubitOperator} (hA : RealStrings m A) (h : A.numQubits ≤ n) : RealStrings n A := fun t ht => by
  obtain ⟨h1, h2, h3⟩ := hA t ht
  exact ⟨h1, ⟨h2.gates, h2.distinct, fits_of_numQubits h t ht⟩, h3⟩

/-- C115: every constructed algorithm object whose Hamiltonian and penalty operators are real computes the same energies in both builds under every schedule (C109). -/
theorem C115_builds {cls : AlgClass} {S : QSystem} {a : AlgArgs} {A : AlgObj} (h : ansatzInit cls S a = .ok A) (h1 : 1 ≤ A.nqb) (hs : ArgsSound S a A.nqb)
    (hH : ∃ m, RealStrings m S.hamiltonian)
    (hO : ∀ v ops eigs scales, a.penalty = some v → checkPenalty v = .ok (ops, eigs, scales) → ∀ B ∈ ops, ∃ m, RealStrings m B ∧ Tidy B) :
    A.BuildFree ∧ RealStrings A.nqb A.ham := by
  obtain ⟨hR, -, hP⟩ := C96_ready cls S a A h hs (.name "SD") {} [] []
  obtain ⟨A0, e0, hA, -, hpen⟩ := ansatz_base h
  have hn : A.nqb = A0.nqb := by rw [hA]
  obtain ⟨-, -, -, -, g5, g6, -⟩ := C96_object cls S a A0 e0
  have hH' : RealStrings A.nqb S.hamiltonian := hH.choose_spec.restrict (by rw [hn, ← g6, g5])
  have hham : RealStrings A.nqb A.ham := by
    rcases hpen with ⟨-, e, -⟩ | ⟨v, ops, eigs, scales, e1, _, _, e2, e3, -⟩
    · rw [e, g5]; exact hH'
    · refine (C115_penalty hH' (fun B hB => ?_) e3).1
      obtain ⟨m, q1, q2⟩ := hO v ops eigs scales e1 e2 B hB
      exact ⟨q1.restrict (hs.penalty v ops eigs scales e1 e2 B hB).2, q2⟩
  refine ⟨⟨fun q hq => ?_, h1, fun t ht => (hham t ht).2⟩, hham⟩
  have : (A.ucc a (.name "SD") {} [] []).initialComputer = q := by unfold UccAlg.initialComputer AlgObj.ucc; rw [hq]; rfl
  exact ⟨this ▸ hR.wf, this ▸ hR.size⟩

/-- C115: molecules built with psi4 and molecules read from a file, with spin penalties or with any other real penalty operators -/
theorem C115_molecule (o : SQOperator.DescSort) {cls : AlgClass} {S : QSystem} {a : AlgArgs} {A : AlgObj} (h : ansatzInit cls S a = .ok A) (h1 : 1 ≤ A.nqb) (hs : ArgsSound S a A.nqb)
    (hS : (∃ D M, RealIntegrals D.oei D.tei ∧ createPsiMol o D = .ok M ∧ S.hamiltonian = M.hamiltonian) ∨
      ∃ D M, D.Valid ∧ (∀ p q, oneInt D p q = oneInt D q p) ∧ (∀ p q r s, twoInt D p q r s = twoInt D r s p q) ∧ createExternalMol o D = .ok M ∧ S.hamiltonian = M.hamiltonian)
    (hO : ∀ v ops eigs scales, a.penalty = some v → checkPenalty v = .ok (ops, eigs, scales) → ∀ B ∈ ops, ∃ m, RealStrings m B ∧ Tidy B) :
    A.BuildFree ∧ RealStrings A.nqb A.ham := by
  refine C115_builds h h1 hs ?_ hO
  rcases hS with ⟨D, M, hI, e, e'⟩ | ⟨D, M, hv, i1, i2, e, e'⟩
  · exact ⟨_, e' ▸ C108_psi o D hI M e⟩
  · exact ⟨_, e' ▸ C108_external o D hv i1 i2 M e⟩

/-! ### the hypotheses -/

theorem simplify_mem {A G : QubitOperator} (hA : A.IsPauli) (hG : ∀ t ∈ G, t.2.Canonical) (nd : (G.map Prod.snd).Nodup) (he : A.opLR = G.opLR) :
    ∃ R, A.simplify = .ok R ∧ R.Normal ∧ ∀ t, t ∈ R ↔ t ∈ G ∧ 1e-12 < ‖t.1‖ := by
  obtain ⟨R, D, e1, op, nR, cD, ndRD, hR, hD, _⟩ := C20_simplify A hA
  have hcan : ∀ t ∈ R ++ D, t.2.Canonical := by
    intro t ht
    rcases List.mem_append.1 ht with h | h
    · exact nR.canonical t h
    · exact cD t h
  have hco := coefN_determined hcan hG (by rw [append_op, ← op, he])
  refine ⟨R, e1, nR, fun t => ⟨fun ht => ⟨?_, hR t ht⟩, fun ⟨ht, hl⟩ => ?_⟩⟩
  · have c := hco t.2
    rw [coefN_mem ndRD (List.mem_append_left _ ht)] at c
    by_cases hm : t.2 ∈ G.map Prod.snd
    · obtain ⟨u, hu, hut⟩ := List.mem_map.1 hm
      rw [← hut, coefN_mem nd hu] at c
      have : t = u := Prod.ext c hut.symm
      exact this ▸ hu
    · rw [coefN_not_mem hm] at c
      have := hR t ht
      rw [c] at this; norm_num at this
  · have c := hco t.2
    rw [coefN_mem nd ht] at c
    by_cases hm : t.2 ∈ (R ++ D).map Prod.snd
    · obtain ⟨u, hu, hut⟩ := List.mem_map.1 hm
      rw [← hut, coefN_mem ndRD hu] at c
      have : u = t := Prod.ext c hut
      subst this
      rcases List.mem_append.1 hu with h | h
      · exact h
      · exact absurd hl (not_lt.2 (hD u h))
    · rw [coefN_not_mem hm] at c
      rw [← c] at hl; norm_num at hl

theorem simplify_keeps {A : QubitOperator} (hT : Tidy A) : ∃ R, A.simplify = .ok R ∧ R.Normal ∧ ∀ t, t ∈ R ↔ t ∈ A := by
  obtain ⟨R, h1, h2, h3⟩ := simplify_mem (isPauli_of_circuits fun t ht g hg => (hT.canonical t ht).pauli g hg) hT.canonical hT.distinct rfl
  exact ⟨R, h1, h2, fun t => ⟨fun h => ((h3 t).1 h).1, fun h => (h3 t).2 ⟨h, hT.large t h⟩⟩⟩

/-- C115: a penalty operator with a coefficient below the threshold (`100 Z₀ + 10⁻¹³ X₀`, which is real and self-adjoint) can make the penalty Hamiltonian non-Hermitian:
its simplification inside the product drops the small term on one side only and an imaginary multiple of `Y₀` remains. -/
theorem C115_untidy : ∃ R, penaltyHamiltonian false [] [[(100, [gZ 0]), (1e-13, [gX 0])]] [0] [1] = .ok R ∧ RealStrings 1 [(100, [gZ 0]), (1e-13, [gX 0])] ∧
    (1e-11 * Complex.I, [gY 0]) ∈ R := by
  have cZ : Circuit.Canonical [gZ 0] := canonical_iff.2 ⟨by simp [pauliGate_Z], by simp⟩
  have cX : Circuit.Canonical [gX 0] := canonical_iff.2 ⟨by simp [pauliGate_X], by simp⟩
  have cY : Circuit.Canonical [gY 0] := canonical_iff.2 ⟨by simp [pauliGate_Y], by simp⟩
  have c0 : Circuit.Canonical [] := canonical_iff.2 ⟨by simp, by simp⟩
  set A : QubitOperator := [(100, [gZ 0]), (1e-13, [gX 0]), (-((0 : ℝ) : ℂ), [])] with hA
  have cA : ∀ t ∈ A, t.2.Canonical := by
    intro t ht
    simp only [hA, List.mem_cons, List.not_mem_nil, or_false] at ht
    rcases ht with rfl | rfl | rfl
    exacts [cZ, cX, c0]
  have zx : gZ 0 ≠ gX 0 := by intro h; have := congrArg Gate.label h; simp [gZ, gX] at this
  have pA : A.IsPauli := isPauli_of_circuits fun t ht g hg => (cA t ht).pauli g hg
  obtain ⟨S, e1, nS, mS⟩ := simplify_mem pA cA (by simp [hA, zx]) rfl
  have hS : S = [(100, [gZ 0])] := by
    have m1 : ∀ t, t ∈ S ↔ t = (100, [gZ 0]) := by
      intro t
      rw [mS t]
      simp only [hA, List.mem_cons, List.not_mem_nil, or_false]
      constructor
      · rintro ⟨rfl | rfl | rfl, h⟩
        · rfl
        · norm_num at h
        · norm_num at h
      · rintro rfl
        exact ⟨.inl rfl, by norm_num⟩
    have nd := (Normal.nodup nS).of_map
    match S, m1, nd with
    | [], m1, _ => exact absurd ((m1 _).2 rfl) (by simp)
    | [x], m1, _ => rw [(m1 x).1 (by simp)]
    | x :: y :: l, m1, nd =>
      have h1 := (m1 x).1 (by simp)
      have h2 := (m1 y).1 (by simp)
      rw [h1, h2] at nd
      simp at nd
  have oY : QubitOperator.opLR (S.products A) = QubitOperator.opLR [((10000 : ℂ), ([] : Circuit)), (1e-11 * Complex.I, [gY 0])] := by
    rw [opLR_products, hS, hA]
    have hz := opZ_sq 0
    have hx := opZ_opX 0
    simp only [QubitOperator.opLR, List.map_cons, List.map_nil, List.sum_cons, List.sum_nil, Circuit.opLR_cons, Circuit.opLR_nil, mul_one, add_zero, op_gX, op_gY, op_gZ]
    rw [mul_add, mul_add, smul_mul_smul_comm, smul_mul_smul_comm, smul_mul_smul_comm, hz, hx, smul_smul]
    norm_num
  obtain ⟨Q, e2, nQ, mQ⟩ := simplify_mem (G := [((10000 : ℂ), ([] : Circuit)), (1e-11 * Complex.I, [gY 0])]) (products_isPauli (hS ▸ isPauli_of_circuits (by
    intro t ht g hg
    simp only [List.mem_cons, List.not_mem_nil, or_false] at ht
    subst ht
    exact cZ.pauli g hg)) pA) (by
    intro t ht
    simp only [List.mem_cons, List.not_mem_nil, or_false] at ht
    rcases ht with rfl | rfl
    exacts [c0, cY]) (by simp) oY
  have yQ : (1e-11 * Complex.I, [gY 0]) ∈ Q := (mQ _).2 ⟨by simp, by simp; norm_num⟩
  have hQ1 : Q.multCoeffs ((1 : ℝ) : ℂ) = Q := by
    unfold QubitOperator.multCoeffs
    simp
  obtain ⟨P, e3, nP, mP⟩ := simplify_keeps (simplify_tidy e2 nQ)
  obtain ⟨R, e4, nR, mR⟩ := simplify_keeps (simplify_tidy e3 nP)
  refine ⟨R, ?_, ?_, (mR _).2 ((mP _).2 yQ)⟩
  · have hpen : penaltyTerm [(100, [gZ 0]), (1e-13, [gX 0])] 0 1 = .ok Q := by
      have ht : (QubitOperator.addTerm (QubitOperator.addOp [] [(100, [gZ 0]), (1e-13, [gX 0])]) (-((0 : ℝ) : ℂ)) []) = A := by
        rw [QubitOperator.addTerm, addOp_eq, List.nil_append]
        rfl
      unfold penaltyTerm
      simp only [ht]
      rw [addOp_eq, List.nil_append]
      unfold QubitOperator.operatorProduct
      simp only [↓reduceIte, e1, e2, except_ok_bind, hQ1]
      rfl
    unfold penaltyHamiltonian
    have hp : ∀ {α : Type} (x : α), pyIndex [x] 0 = .ok x := fun x => rfl
    rw [if_neg (by simp), if_neg (by simp)]
    simp only [List.length_singleton, List.range_one, List.foldlM_cons, List.foldlM_nil, hp, except_ok_bind, hpen, addOp_eq, List.nil_append, e3]
    exact e4
  · intro t ht
    simp only [List.mem_cons, List.not_mem_nil, or_false] at ht
    rcases ht with rfl | rfl
    · refine ⟨by norm_num, ⟨by simp [pauliGate_Z], by simp, ?_⟩, by simp [Circuit.numY, gZ]⟩
      intro g hg; rw [List.mem_singleton.1 hg]; simp [gZ]
    · refine ⟨by norm_num, ⟨by simp [pauliGate_X], by simp, ?_⟩, by simp [Circuit.numY, gX]⟩
      intro g hg; rw [List.mem_singleton.1 hg]; simp [gX]

/-- C115: the hypotheses are met: UCCN-VQE on four qubits with penalties for `S²` and `S_z` is constructed, and its energies do not depend on the build. -/
theorem C115_example (o : SQOperator.DescSort) : ∃ S2 Sz A, totalSpinSquared o 4 = .ok S2 ∧ totalSpinZ o 4 = .ok Sz ∧
    ansatzInit .uccnvqe fourQubits { penalty := some (.dict [("operators", .list [.op S2, .op Sz]), ("eigenvalues", .list [.num 0, .num 0]), ("scaling_factors", .list [.num 3, .num 0.5])]) } = .ok A ∧
    A.nqb = 4 ∧ A.BuildFree ∧ RealStrings 4 A.ham := by
  obtain ⟨S2, h1, -, h2, h3⟩ := s2_penalty o 2
  obtain ⟨Sz, h4, -, h5, h6⟩ := sz_penalty o 2
  have hd : (["operators", "eigenvalues", "scaling_factors"] : List String).Nodup := by decide
  set v : PyVal := .dict [("operators", .list [.op S2, .op Sz]), ("eigenvalues", .list [.num 0, .num 0]), ("scaling_factors", .list [.num 3, .num 0.5])] with hv
  have hvd : ∀ d, some v = some (.dict d) → (d.map Prod.fst).Nodup := by
    intro d h
    rw [hv] at h
    cases h
    exact hd
  have hpen : IsPenalty v [S2, Sz] [0, 0] [3, 0.5] := ⟨_, rfl, by simp, rfl, rfl⟩
  have huniq : ∀ ops eigs scales, IsPenalty v ops eigs scales → ops = [S2, Sz] := by
    rintro ops eigs scales ⟨d, e, h, -⟩
    rw [hv] at e
    cases e
    have := (h ("operators", .list (ops.map .op))).2 (.inl rfl)
    simp only [List.mem_cons, List.not_mem_nil, or_false, Prod.mk.injEq] at this
    rcases this with ⟨-, h⟩ | ⟨h, -⟩ | ⟨h, -⟩
    · have h := PyVal.list.inj h
      match ops, h with
      | [a, b], h =>
        simp only [List.map_cons, List.map_nil, List.cons.injEq, PyVal.op.injEq, and_true] at h
        rw [h.1, h.2]
      | [], h => simp at h
      | [_], h => simp at h
      | _ :: _ :: _ :: _, h => simp at h
    · exact absurd h (by decide)
    · exact absurd h (by decide)
  have hops : ∀ B ∈ [S2, Sz], RealStrings 4 B ∧ Tidy B := by
    intro B hB
    simp only [List.mem_cons, List.not_mem_nil, or_false] at hB
    rcases hB with rfl | rfl
    · exact ⟨h2, h3⟩
    · exact ⟨h5, h6⟩
  obtain ⟨A, hA⟩ := (C96_ansatz .uccnvqe fourQubits { penalty := some v } hvd fourQubits_pauli (fun w ops eigs scales hw hI B hB => by
      obtain rfl := Option.some.inj hw
      rw [huniq _ _ _ hI] at hB
      exact (hops B hB).1.isPauli)).2
    ⟨(C96_accepts .uccnvqe fourQubits _).2 ⟨[1, 1, 0, 0], .hf rfl rfl rfl, rfl, fun h => by simp at h⟩, (fun w hw => ⟨by simp, by simp, _, _, _, Option.some.inj hw ▸ hpen⟩), by simp [fourQubits]⟩
  have hr : A.ref = [1, 1, 0, 0] ∧ A.nqb = A.ref.length := by
    obtain ⟨A0, e0, e1, _⟩ := ansatz_base hA
    have : A0.ref = [1, 1, 0, 0] := by
      cases (C96_object _ _ _ A0 e0).1.1 with
      | hf _ _ h => exact (Option.some.inj h).symm
      | occupation _ h => cases h
      | circuit _ h _ _ => exact absurd h (by simp)
      | computer _ h _ _ _ _ _ => exact absurd h (by simp)
    rw [e1]
    exact ⟨this, (C96_object _ _ _ A0 e0).2.2.2.1⟩
  have hn : A.nqb = 4 := by rw [hr.2, hr.1]; rfl
  have hchk : ∀ w ops eigs scales, some v = some w → checkPenalty w = .ok (ops, eigs, scales) → ∀ B ∈ ops, RealStrings 4 B ∧ Tidy B := by
    intro w ops eigs scales hw hc B hB
    obtain rfl := Option.some.inj hw
    have hI := (C96_penalty_accepts v (fun d e => hvd d (e ▸ rfl)) ops eigs scales).1 hc
    rw [huniq _ _ _ hI] at hB
    exact hops B hB
  have hs : ArgsSound fourQubits { penalty := some v } A.nqb := by
    refine ⟨fourQubits_pauli, fun C h => absurd h (by simp), (fun q h => nomatch h), fun w ops eigs scales hw hc B hB => ?_⟩
    have h := (hchk w ops eigs scales hw hc B hB).1
    exact ⟨h.isPauli, by rw [hn]; exact (C13_operator_num_qubits B).2 4 fun t ht g hg => by have := (h t ht).2.1.fits g hg; omega⟩
  have hH : RealStrings 4 fourQubits.hamiltonian := by
    intro t ht
    simp only [fourQubits, List.mem_cons, List.not_mem_nil, or_false] at ht
    rcases ht with rfl | rfl
    · refine ⟨by norm_num, ⟨by simp [pauliGate_Z], by simp, ?_⟩, by simp [Circuit.numY, gZ]⟩
      intro g hg; rw [List.mem_singleton.1 hg]; simp [gZ]
    · refine ⟨by norm_num, ⟨by simp [pauliGate_X], by simp [gX], ?_⟩, by simp [Circuit.numY, gX]⟩
      intro g hg
      simp only [List.mem_cons, List.not_mem_nil, or_false] at hg
      rcases hg with rfl | rfl <;> simp [gX]
  obtain ⟨b1, b2⟩ := C115_builds hA (by omega) hs ⟨4, hH⟩ fun w ops eigs scales hw hc B hB => ⟨4, hchk w ops eigs scales hw hc B hB⟩
  exact ⟨S2, Sz, A, h1, h4, hA, hn, b1, hn ▸ b2⟩

end QF
