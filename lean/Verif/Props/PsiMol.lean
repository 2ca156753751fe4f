import Verif.Model.Psi
import Verif.Lemmas.FrozenSpatial
import Verif.Props.ExternalMol

/-!
C93: the molecule `create_psi_mol` builds from psi4's integrals, with frozen orbitals.
-/
namespace QF
open SQOperator (DescSort jwTransform simplify)

/-- number of active orbitals -/
def PsiData.nact (D : PsiData) : ℕ := D.nmo - D.frozenVirtual - D.frozenCore

theorem op_fold {α : Type} (F : SQOperator → α → SQOperator) (G : α → Op) (l : List α) (h : ∀ H, ∀ x ∈ l, SQOperator.op (F H x) = SQOperator.op H + G x) (A : SQOperator) :
    SQOperator.op (l.foldl F A) = SQOperator.op A + (l.map G).sum := by
  induction l generalizing A with
  | nil => simp
  | cons x l ih =>
    rw [List.foldl_cons, ih (fun H y hy => h H y (by simp [hy])), h A x (by simp), List.map_cons, List.sum_cons, add_assoc]

theorem op_addTerm (H : SQOperator) (z : ℂ) (c a : List ℕ) : SQOperator.op (H.addTerm z c a) = SQOperator.op H + z • fermiString c a := by
  simp [SQOperator.op, SQOperator.addTerm]

theorem sum_range' {M : Type} [AddCommMonoid M] (f : ℕ → M) (a m : ℕ) : ((List.range' a m).map f).sum = ∑ i ∈ Finset.range m, f (a + i) := by
  induction m with
  | zero => simp
  | succ m ih => rw [List.range'_concat, List.map_append, List.sum_append, ih, Finset.sum_range_succ]; simp

theorem op_cond (H : SQOperator) (z : ℂ) (p q r s : ℕ) :
    SQOperator.op (if p ≠ q ∧ r ≠ s then H.addTerm z [p, q] [r, s] else H) = SQOperator.op H + z • (aDag p * aDag q * aAnn r * aAnn s) := by
  have e : fermiString [p, q] [r, s] = aDag p * aDag q * aAnn r * aAnn s := by simp [fermiString, mul_assoc]
  split_ifs with h
  · rw [op_addTerm, e]
  · have : aDag p * aDag q * aAnn r * aAnn s = 0 := by
      by_cases hp : p = q
      · subst hp; rw [ladder_sq, zero_mul, zero_mul]
      · have hr : r = s := by by_contra hr; exact h ⟨hp, hr⟩
        subst hr; rw [mul_assoc, ladder_sq, mul_zero]
    rw [this, smul_zero, add_zero]

theorem op_psiTwo (D : PsiData) (i j k l : ℕ) (H : SQOperator) : SQOperator.op (psiTwoTerms D (D.frozenCore + i) (D.frozenCore + j) (D.frozenCore + k) (D.frozenCore + l) H) =
    SQOperator.op H + ((D.tei (D.frozenCore + i) (D.frozenCore + l) (D.frozenCore + k) (D.frozenCore + j) / 2 : ℝ) : ℂ) •
      (aDag (2 * i) * aDag (2 * j + 1) * aAnn (2 * k + 1) * aAnn (2 * l) + aDag (2 * i + 1) * aDag (2 * j) * aAnn (2 * k) * aAnn (2 * l + 1) +
       aDag (2 * i) * aDag (2 * j) * aAnn (2 * k) * aAnn (2 * l) + aDag (2 * i + 1) * aDag (2 * j + 1) * aAnn (2 * k + 1) * aAnn (2 * l + 1)) := by
  unfold psiTwoTerms
  simp only [Nat.add_sub_cancel_left]
  rw [op_cond, op_cond, op_cond, op_cond]
  simp only [smul_add, Nat.mul_comm _ 2]
  abel

theorem fold_add (f : ℕ → ℝ) (n : ℕ) (a : ℝ) : (List.range n).foldl (fun x i => x + f i) a = a + ∑ i ∈ Finset.range n, f i := by
  induction n with
  | zero => simp
  | succ n ih => rw [List.range_succ, List.foldl_append, ih, Finset.sum_range_succ]; simp [add_assoc]

theorem frozenCoreEnergy_eq (D : PsiData) : frozenCoreEnergy D = coreEnergy D.frozenCore D.oei D.tei := by
  unfold frozenCoreEnergy coreEnergy
  split_ifs with h
  · simp only [fold_add, zero_add, Finset.mul_sum]
  · rw [show D.frozenCore = 0 by omega]; simp

theorem mem_active (D : PsiData) {i : ℕ} (h : i < D.nact) : D.frozenCore + i ∈ D.active := by
  unfold PsiData.active PsiData.nact at *
  rw [List.mem_range']; exact ⟨i, h, by omega⟩

theorem psiOei_eq (D : PsiData) {i j : ℕ} (hi : i < D.nact) (hj : j < D.nact) :
    psiOei D (D.frozenCore + i) (D.frozenCore + j) = coreOei D.frozenCore D.oei D.tei (D.frozenCore + i) (D.frozenCore + j) := by
  unfold psiOei coreOei
  by_cases h : D.frozenCore > 0
  · rw [if_pos ⟨h, mem_active D hi, mem_active D hj⟩, fold_add]
  · rw [if_neg (fun h' => h h'.1), show D.frozenCore = 0 by omega]; simp

/-- the Hamiltonian of the spatial orbitals, written with the spin sums carried out -/
theorem spatialHam_spins (m : ℕ) (E : ℝ) (h : ℕ → ℕ → ℝ) (g : ℕ → ℕ → ℕ → ℕ → ℝ) : spatialHam m E h g = (E : ℂ) • 1 +
    ∑ i ∈ Finset.range m, ∑ j ∈ Finset.range m, (h i j : ℂ) • (aDag (2 * i) * aAnn (2 * j) + aDag (2 * i + 1) * aAnn (2 * j + 1)) +
    (1 / 2 : ℂ) • ∑ i ∈ Finset.range m, ∑ j ∈ Finset.range m, ∑ k ∈ Finset.range m, ∑ l ∈ Finset.range m, (g i l j k : ℂ) •
      (aDag (2 * i) * aDag (2 * j + 1) * aAnn (2 * k + 1) * aAnn (2 * l) + aDag (2 * i + 1) * aDag (2 * j) * aAnn (2 * k) * aAnn (2 * l + 1) +
       aDag (2 * i) * aDag (2 * j) * aAnn (2 * k) * aAnn (2 * l) + aDag (2 * i + 1) * aDag (2 * j + 1) * aAnn (2 * k + 1) * aAnn (2 * l + 1)) := by
  unfold spatialHam twoBodyOp
  congr 1
  · congr 1
    rw [sum_two_mul]
    refine Finset.sum_congr rfl fun i _ => ?_
    rw [sum_two_mul, sum_two_mul, ← Finset.sum_add_distrib]
    refine Finset.sum_congr rfl fun j _ => ?_
    simp only [spinOne, two_mod, if_true, zero_ne_one, one_ne_zero, if_false, Complex.ofReal_zero, zero_smul, add_zero, zero_add, smul_add]
  · congr 1
    rw [sum_two_mul]
    refine Finset.sum_congr rfl fun i _ => ?_
    rw [sum_two_mul, sum_two_mul, ← Finset.sum_add_distrib]
    refine Finset.sum_congr rfl fun j _ => ?_
    rw [sum_two_mul, sum_two_mul, sum_two_mul, sum_two_mul, ← Finset.sum_add_distrib, ← Finset.sum_add_distrib, ← Finset.sum_add_distrib]
    refine Finset.sum_congr rfl fun k _ => ?_
    simp only [sum_two_mul]
    simp only [← Finset.sum_add_distrib]
    refine Finset.sum_congr rfl fun l _ => ?_
    simp only [spinTwo, two_mod, if_true, zero_ne_one, one_ne_zero, if_false, Complex.ofReal_zero, zero_smul, add_zero, zero_add, smul_add, and_true, and_false,
      and_self]
    abel

/-- the operator `create_psi_mol` builds before simplification -/
theorem psiSqHam_op (D : PsiData) (hg : ∀ i j k l, D.tei i j k l = D.tei i j l k) : SQOperator.op (psiSqHam D) =
    spatialHam D.nact (D.enuc + coreEnergy D.frozenCore D.oei D.tei) (fun i j => coreOei D.frozenCore D.oei D.tei (D.frozenCore + i) (D.frozenCore + j))
      (fun i j k l => D.tei (D.frozenCore + i) (D.frozenCore + j) (D.frozenCore + k) (D.frozenCore + l)) := by
  have hact : D.active = List.range' D.frozenCore D.nact := rfl
  unfold psiSqHam
  dsimp only
  rw [op_fold _ (fun i => ∑ j ∈ Finset.range D.nact,
    ((psiOei D i (D.frozenCore + j) : ℂ) • (aDag (2 * (i - D.frozenCore)) * aAnn (2 * j) + aDag (2 * (i - D.frozenCore) + 1) * aAnn (2 * j + 1)) +
      ∑ k ∈ Finset.range D.nact, ∑ l ∈ Finset.range D.nact, ((D.tei i (D.frozenCore + l) (D.frozenCore + k) (D.frozenCore + j) / 2 : ℝ) : ℂ) •
      (aDag (2 * (i - D.frozenCore)) * aDag (2 * j + 1) * aAnn (2 * k + 1) * aAnn (2 * l) + aDag (2 * (i - D.frozenCore) + 1) * aDag (2 * j) * aAnn (2 * k) * aAnn (2 * l + 1) +
       aDag (2 * (i - D.frozenCore)) * aDag (2 * j) * aAnn (2 * k) * aAnn (2 * l) + aDag (2 * (i - D.frozenCore) + 1) * aDag (2 * j + 1) * aAnn (2 * k + 1) * aAnn (2 * l + 1))))]
  · have h0 : SQOperator.op [] = 0 := by simp [SQOperator.op]
    rw [hact, sum_range', spatialHam_spins, op_addTerm, h0, zero_add, add_assoc ((_ : ℂ) • (1 : Op))]
    congr 1
    · rw [frozenCoreEnergy_eq]
      simp [fermiString]
    · rw [Finset.smul_sum, ← Finset.sum_add_distrib]
      refine Finset.sum_congr rfl fun i hi => ?_
      rw [Finset.smul_sum, ← Finset.sum_add_distrib]
      refine Finset.sum_congr rfl fun j hj => ?_
      rw [Finset.mem_range] at hi hj
      rw [psiOei_eq D hi hj, Nat.add_sub_cancel_left]
      congr 1
      simp only [Finset.smul_sum]
      refine Finset.sum_congr rfl fun k _ => Finset.sum_congr rfl fun l _ => ?_
      rw [smul_smul, hg (D.frozenCore + i) (D.frozenCore + l) (D.frozenCore + k)]
      congr 1
      push_cast; ring
  · intro H i hi
    rw [hact, List.mem_range'] at hi
    obtain ⟨i, _, rfl⟩ := hi
    rw [one_mul, Nat.add_sub_cancel_left]
    rw [op_fold _ (fun j => (psiOei D (D.frozenCore + i) j : ℂ) • (aDag (2 * i) * aAnn (2 * (j - D.frozenCore)) + aDag (2 * i + 1) * aAnn (2 * (j - D.frozenCore) + 1)) +
      ∑ k ∈ Finset.range D.nact, ∑ l ∈ Finset.range D.nact, ((D.tei (D.frozenCore + i) (D.frozenCore + l) (D.frozenCore + k) j / 2 : ℝ) : ℂ) •
      (aDag (2 * i) * aDag (2 * (j - D.frozenCore) + 1) * aAnn (2 * k + 1) * aAnn (2 * l) + aDag (2 * i + 1) * aDag (2 * (j - D.frozenCore)) * aAnn (2 * k) * aAnn (2 * l + 1) +
       aDag (2 * i) * aDag (2 * (j - D.frozenCore)) * aAnn (2 * k) * aAnn (2 * l) +
       aDag (2 * i + 1) * aDag (2 * (j - D.frozenCore) + 1) * aAnn (2 * k + 1) * aAnn (2 * l + 1)))]
    · rw [hact, sum_range']
      congr 1
      refine Finset.sum_congr rfl fun j _ => ?_
      simp only [Nat.add_sub_cancel_left]
    · intro H j hj
      rw [hact, List.mem_range'] at hj
      obtain ⟨j, _, rfl⟩ := hj
      rw [one_mul, Nat.add_sub_cancel_left]
      rw [op_fold _ (fun k => ∑ l ∈ Finset.range D.nact, ((D.tei (D.frozenCore + i) (D.frozenCore + l) k (D.frozenCore + j) / 2 : ℝ) : ℂ) •
        (aDag (2 * i) * aDag (2 * j + 1) * aAnn (2 * (k - D.frozenCore) + 1) * aAnn (2 * l) + aDag (2 * i + 1) * aDag (2 * j) * aAnn (2 * (k - D.frozenCore)) * aAnn (2 * l + 1) +
         aDag (2 * i) * aDag (2 * j) * aAnn (2 * (k - D.frozenCore)) * aAnn (2 * l) +
         aDag (2 * i + 1) * aDag (2 * j + 1) * aAnn (2 * (k - D.frozenCore) + 1) * aAnn (2 * l + 1)))]
      · rw [hact, sum_range', op_addTerm, op_addTerm]
        simp only [Nat.add_sub_cancel_left, Nat.mul_comm _ 2, fermiString, List.map_cons, List.map_nil, List.prod_cons, List.prod_nil, mul_one, smul_add]
        abel
      · intro H k hk
        rw [hact, List.mem_range'] at hk
        obtain ⟨k, _, rfl⟩ := hk
        rw [one_mul, Nat.add_sub_cancel_left]
        rw [op_fold _ (fun l => ((D.tei (D.frozenCore + i) l (D.frozenCore + k) (D.frozenCore + j) / 2 : ℝ) : ℂ) •
          (aDag (2 * i) * aDag (2 * j + 1) * aAnn (2 * k + 1) * aAnn (2 * (l - D.frozenCore)) + aDag (2 * i + 1) * aDag (2 * j) * aAnn (2 * k) * aAnn (2 * (l - D.frozenCore) + 1) +
           aDag (2 * i) * aDag (2 * j) * aAnn (2 * k) * aAnn (2 * (l - D.frozenCore)) +
           aDag (2 * i + 1) * aDag (2 * j + 1) * aAnn (2 * k + 1) * aAnn (2 * (l - D.frozenCore) + 1)))]
        · rw [hact, sum_range']
          simp only [Nat.add_sub_cancel_left]
        · intro H l hl
          rw [hact, List.mem_range'] at hl
          obtain ⟨l, _, rfl⟩ := hl
          rw [one_mul, Nat.add_sub_cancel_left]
          exact op_psiTwo D i j k l H


/-! ### the shape of the terms -/

def GoodTerm (n : ℕ) (t : SQTerm) : Prop := t.2.1.length = t.2.2.length ∧ t.2.1.length ≤ 2 ∧ (∀ p ∈ t.2.1, p < n) ∧ (∀ p ∈ t.2.2, p < n) ∧ t.2.1.Nodup ∧ t.2.2.Nodup

theorem good_fold {α : Type} {n : ℕ} (F : SQOperator → α → SQOperator) (l : List α) (h : ∀ H : SQOperator, ∀ x ∈ l, (∀ t ∈ H, GoodTerm n t) → ∀ t ∈ F H x, GoodTerm n t)
    (A : SQOperator) (hA : ∀ t ∈ A, GoodTerm n t) : ∀ t ∈ l.foldl F A, GoodTerm n t := by
  induction l generalizing A with
  | nil => exact hA
  | cons x l ih => exact ih (fun H y hy => h H y (by simp [hy])) _ (h A x (by simp) hA)

theorem good_addTerm {n : ℕ} {H : SQOperator} (hH : ∀ t ∈ H, GoodTerm n t) {z : ℂ} {c a : List ℕ} (h : GoodTerm n (z, c, a)) : ∀ t ∈ H.addTerm z c a, GoodTerm n t := by
  intro t ht
  simp only [SQOperator.addTerm, List.mem_append, List.mem_singleton] at ht
  rcases ht with ht | rfl
  · exact hH t ht
  · exact h

theorem good_cond {n : ℕ} {H : SQOperator} (hH : ∀ t ∈ H, GoodTerm n t) {z : ℂ} {p q r s : ℕ} (hp : p < n) (hq : q < n) (hr : r < n) (hs : s < n) :
    ∀ t ∈ (if p ≠ q ∧ r ≠ s then H.addTerm z [p, q] [r, s] else H), GoodTerm n t := by
  split_ifs with h
  · exact good_addTerm hH ⟨rfl, by simp, by simp [hp, hq], by simp [hr, hs], by simp [h.1], by simp [h.2]⟩
  · exact hH

theorem psi_good (D : PsiData) : ∀ t ∈ psiSqHam D, GoodTerm (2 * D.nact) t := by
  have hact : ∀ i ∈ D.active, (i - D.frozenCore) * 2 + 1 < 2 * D.nact ∧ (i - D.frozenCore) * 2 < 2 * D.nact := by
    intro i hi
    rw [show D.active = List.range' D.frozenCore D.nact from rfl, List.mem_range'] at hi
    obtain ⟨i, _, rfl⟩ := hi
    omega
  unfold psiSqHam
  dsimp only
  refine good_fold _ _ (fun H i hi hH => good_fold _ _ (fun H j hj hH => good_fold _ _ (fun H k hk hH => good_fold _ _ (fun H l hl hH => ?_) _ hH) _ ?_) _ hH) _ ?_
  · obtain ⟨i1, i0⟩ := hact i hi
    obtain ⟨j1, j0⟩ := hact j hj
    obtain ⟨k1, k0⟩ := hact k hk
    obtain ⟨l1, l0⟩ := hact l hl
    unfold psiTwoTerms
    dsimp only
    exact good_cond (good_cond (good_cond (good_cond hH i0 j1 k1 l0) i1 j0 k0 l1) i0 j0 k0 l0) i1 j1 k1 l1
  · obtain ⟨i1, i0⟩ := hact i hi
    obtain ⟨j1, j0⟩ := hact j hj
    refine good_addTerm (good_addTerm hH ?_) ?_
    · exact ⟨rfl, by simp, by simpa using i0, by simpa using j0, by simp, by simp⟩
    · exact ⟨rfl, by simp, by simpa using i1, by simpa using j1, by simp, by simp⟩
  · exact good_addTerm (by simp) ⟨rfl, by simp, by simp, by simp, by simp, by simp⟩

theorem psi_live (D : PsiData) : (psiSqHam D).Live ∧ (psiSqHam D).Balanced (2 * D.nact) ∧ ∀ t ∈ psiSqHam D, t.2.1.length + t.2.2.length ≤ 39 := by
  refine ⟨fun t ht => ?_, fun t ht => ?_, fun t ht => ?_⟩ <;> obtain ⟨h1, h2, h3, h4, h5, h6⟩ := psi_good D t ht
  · exact .inr ⟨h5, h6⟩
  · exact ⟨h1, h3, h4⟩
  · omega

theorem createPsi_ok {o : DescSort} {D : PsiData} {M : PsiMolecule} (e : createPsiMol o D = .ok M) :
    ∃ s irreps, psiReference D = .ok s ∧ irrepsOfPointGroups D.pointGroup = .ok irreps ∧ M.pointGroup = (D.pointGroup, irreps) ∧
      s.irreps.mapM (pyAt irreps) = .ok M.orbIrreps ∧ M.orbIrrepsToInt = s.irreps ∧ M.hfReference = s.reference ∧ M.orbEnergies = s.energies ∧
      M.frozenCoreEnergy = frozenCoreEnergy D ∧ (psiSqHam D).jwTransform o false = .ok (M.hamiltonian, M.sqHamiltonian) := by
  unfold createPsiMol at e
  cases e1 : psiReference D with
  | error x => rw [e1] at e; simp [bind, Except.bind] at e
  | ok s =>
    cases e2 : irrepsOfPointGroups D.pointGroup with
    | error x => rw [e1] at e; simp [bind, Except.bind, e2] at e
    | ok irreps =>
      cases e3 : s.irreps.mapM (pyAt irreps) with
      | error x => rw [e1] at e; simp [bind, Except.bind, e2, e3] at e
      | ok oi =>
        cases e4 : (psiSqHam D).jwTransform o false with
        | error x => rw [e1] at e; simp [bind, Except.bind, e2, e3, e4] at e
        | ok QR =>
          rw [e1] at e
          simp [bind, Except.bind, e2, e3, e4, pure, Except.pure] at e
          subst e
          exact ⟨s, irreps, rfl, rfl, rfl, e3, rfl, rfl, rfl, rfl, rfl⟩

/-- **C93 (frozen orbitals).**  The Hamiltonian of the molecule is the full electronic Hamiltonian restricted to the states with the core
doubly occupied and the frozen virtuals empty: for every active-space state `ψ` and determinant `J`, amplitude `J` of `H_active ψ` is
the amplitude, on `J` with the core added, of the full Hamiltonian applied to `ψ` with the core added.  The qubit Hamiltonian represents `H_active`;
in both steps only terms of magnitude at most 1e-12 are dropped. -/
theorem C93_hamiltonian (o : DescSort) (D : PsiData) (hI : RealIntegrals D.oei D.tei) (hf : D.frozenCore + D.frozenVirtual ≤ D.nmo) (M : PsiMolecule)
    (e : createPsiMol o D = .ok M) :
    ∃ (DS : SQOperator) (DQ : QubitOperator),
      (∀ ψ : St, OnReg (2 * D.nact) ψ → ∀ J < 2 ^ (2 * D.nact),
        spatialHam D.nmo D.enuc D.oei D.tei (withCore (2 * D.frozenCore) ψ) (coreDet (2 * D.frozenCore) J) =
          (SQOperator.op M.sqHamiltonian + SQOperator.op DS) ψ J) ∧
      SQOperator.op M.sqHamiltonian = M.hamiltonian.opLR + QubitOperator.opLR DQ ∧
      (∀ t ∈ DS, ‖t.1‖ ≤ 1e-12) ∧ ((M.sqHamiltonian ++ DS).map Prod.snd).Nodup ∧
      (∀ t ∈ DQ, ‖t.1‖ ≤ 1e-12 ∧ t.2.Canonical) ∧ ((M.hamiltonian ++ DQ).map Prod.snd).Nodup := by
  obtain ⟨_, _, _, _, _, _, _, _, _, _, ej⟩ := createPsi_ok e
  obtain ⟨hl, hb, h39⟩ := psi_live D
  obtain ⟨Q, R, DQ, f1, f2, f3, f4, f5, f6, f7, f8⟩ := jw_live o (psiSqHam D) hl h39
  rw [ej] at f1
  obtain ⟨rfl, rfl⟩ := Prod.mk.inj (Except.ok.inj f1)
  obtain ⟨R, DS, g1, g2, g3, g4, _, g6, g7⟩ := C35_simplify o (psiSqHam D)
  rw [f2] at g1
  obtain rfl := Except.ok.inj g1
  refine ⟨DS, DQ, ?_, f3, g7, g4, fun t ht => ⟨f8 t ht, f6 t ht⟩, f7⟩
  intro ψ hψ J hJ
  rw [← g2, psiSqHam_op D hI.right]
  have := frozen_active D.frozenCore D.nact D.frozenVirtual D.enuc D.oei D.tei hI.swap hψ hJ
  rwa [show D.frozenCore + D.nact + D.frozenVirtual = D.nmo by unfold PsiData.nact; omega] at this


theorem twoBody_electronic (n : ℕ) (E : ℝ) (h : ℕ → ℕ → ℝ) (v : ℕ → ℕ → ℕ → ℕ → ℝ) : twoBodyOp n E h v = electronicOp n E h (fun p q r s => 2 * v p q s r) := by
  unfold twoBodyOp electronicOp
  congr 1
  simp only [Finset.smul_sum]
  refine Finset.sum_congr rfl fun p _ => Finset.sum_congr rfl fun q _ => ?_
  rw [Finset.sum_comm]
  refine Finset.sum_congr rfl fun r _ => Finset.sum_congr rfl fun s _ => ?_
  rw [smul_smul, smul_smul]
  congr 1
  push_cast; ring

theorem spatial_hermitian (m : ℕ) (E : ℝ) (h : ℕ → ℕ → ℝ) (g : ℕ → ℕ → ℕ → ℕ → ℝ) (hI : RealIntegrals h g) (n : ℕ) (hn : 2 * m ≤ n) : HermitianOn n (spatialHam m E h g) := by
  unfold spatialHam
  rw [twoBody_electronic]
  refine electronic_hermitian _ _ _ ?_ ?_ n hn
  · intro p q _ _
    unfold spinOne
    rw [hI.one (p / 2)]
    exact if_congr ⟨Eq.symm, Eq.symm⟩ rfl rfl
  · intro p q r s _ _ _ _
    unfold spinTwo
    rw [hI.left (p / 2), hI.right (r / 2)]
    congr 1
    exact if_congr ⟨fun h => ⟨h.1.symm, h.2.symm⟩, fun h => ⟨h.1.symm, h.2.symm⟩⟩ rfl rfl

theorem core_integrals {f : ℕ} {h : ℕ → ℕ → ℝ} {g : ℕ → ℕ → ℕ → ℕ → ℝ} (hI : RealIntegrals h g) :
    RealIntegrals (fun i j => coreOei f h g (f + i) (f + j)) (fun i j k l => g (f + i) (f + j) (f + k) (f + l)) where
  one i j := by
    unfold coreOei
    rw [hI.one]
    congr 1
    refine Finset.sum_congr rfl fun k _ => ?_
    rw [hI.left (f + i), hI.swap (f + i) k, hI.left k (f + j), hI.right (f + j) k (f + i)]
  left _ _ _ _ := hI.left _ _ _ _
  right _ _ _ _ := hI.right _ _ _ _
  swap _ _ _ _ := hI.swap _ _ _ _

/-- **C93 (Hermiticity).**  Real integrals with the usual symmetries give Hamiltonians that are self-adjoint exactly, whatever was dropped:
every Pauli coefficient of the qubit Hamiltonian is real. -/
theorem C93_hermitian (o : DescSort) (D : PsiData) (hI : RealIntegrals D.oei D.tei) (M : PsiMolecule) (e : createPsiMol o D = .ok M) :
    (∀ t ∈ M.hamiltonian, t.1.im = 0 ∧ t.2.PauliString (2 * D.nact)) ∧ ∀ n, 2 * D.nact ≤ n → HermitianOn n (SQOperator.op M.sqHamiltonian) := by
  obtain ⟨_, _, _, _, _, _, _, _, _, _, ej⟩ := createPsi_ok e
  obtain ⟨hl, hb, h39⟩ := psi_live D
  refine jw_real o hb hl h39 ?_ ej
  intro m hm
  rw [psiSqHam_op D hI.right]
  exact spatial_hermitian _ _ _ _ (core_integrals hI) m hm

/-! ### closed shells -/

theorem coreOei_add (f k : ℕ) (h : ℕ → ℕ → ℝ) (g : ℕ → ℕ → ℕ → ℕ → ℝ) (i j : ℕ) :
    coreOei k (fun i j => coreOei f h g (f + i) (f + j)) (fun i j k l => g (f + i) (f + j) (f + k) (f + l)) i j = coreOei (f + k) h g (f + i) (f + j) := by
  unfold coreOei
  rw [Finset.sum_range_add, add_assoc]

theorem coreEnergy_add (f k : ℕ) (h : ℕ → ℕ → ℝ) (g : ℕ → ℕ → ℕ → ℕ → ℝ) (hs : ∀ i j k l, g i j k l = g k l i j) :
    coreEnergy f h g + coreEnergy k (fun i j => coreOei f h g (f + i) (f + j)) (fun i j k l => g (f + i) (f + j) (f + k) (f + l)) = coreEnergy (f + k) h g := by
  unfold coreEnergy coreOei
  rw [Finset.sum_range_add, Finset.sum_range_add]
  simp only [Finset.sum_range_add (fun j => 2 * g _ _ j j - g _ j j _)]
  have e : ∑ i ∈ Finset.range f, ∑ j ∈ Finset.range k, (2 * g i i (f + j) (f + j) - g i (f + j) (f + j) i) =
      ∑ j ∈ Finset.range k, ∑ i ∈ Finset.range f, (2 * g (f + j) (f + j) i i - g (f + j) i i (f + j)) := by
    rw [Finset.sum_comm]
    refine Finset.sum_congr rfl fun j _ => Finset.sum_congr rfl fun i _ => ?_
    rw [hs i i, hs i (f + j)]
  simp only [Finset.sum_add_distrib, e]
  ring

theorem withCore_single (c : ℕ) : withCore c (Pi.single 0 1) = Pi.single (coreDet c 0) 1 := by
  funext I
  rw [withCore_apply]
  by_cases h : I % 2 ^ c = 2 ^ c - 1
  · rw [if_pos h]
    by_cases h0 : I / 2 ^ c = 0
    · have hI : I = coreDet c 0 := by rw [← h0]; exact coreDet_of_mod h
      rw [h0, hI]; simp
    · have hI : I ≠ coreDet c 0 := by rintro rfl; exact h0 (coreDet_mod_div c 0).2
      rw [Pi.single_eq_of_ne h0, Pi.single_eq_of_ne hI]
  · have hI : I ≠ coreDet c 0 := by rintro rfl; exact h (coreDet_mod_div c 0).1
    rw [if_neg h, Pi.single_eq_of_ne hI]

/-- the expectation value of the Hamiltonian in the determinant of `k` doubly occupied orbitals -/
theorem closed_shell_energy (m k : ℕ) (hk : k ≤ m) (E : ℝ) (h : ℕ → ℕ → ℝ) (g : ℕ → ℕ → ℕ → ℕ → ℝ) (hs : ∀ i j k l, g i j k l = g k l i j) :
    spatialHam m E h g (Pi.single (2 ^ (2 * k) - 1) 1) (2 ^ (2 * k) - 1) = ((E + coreEnergy k h g : ℝ) : ℂ) := by
  have h0 : OnReg (2 * 0) (Pi.single 0 1) := by
    intro I hI
    rw [Pi.single_eq_of_ne]
    have : 1 ≤ I := by simpa using hI
    omega
  have e := frozen_active k 0 (m - k) E h g hs h0 (J := 0) (by simp)
  rw [withCore_single, show k + 0 + (m - k) = m by omega] at e
  have c0 : coreDet (2 * k) 0 = 2 ^ (2 * k) - 1 := by unfold coreDet; simp
  rw [c0] at e
  rw [e]
  simp [spatialHam, twoBodyOp]

theorem inner_single {n I : ℕ} (hI : I < 2 ^ n) (ψ : St) : inner n (Pi.single I 1) ψ = ψ I := by
  unfold inner
  rw [Finset.sum_eq_single_of_mem I (by simpa using hI)]
  · simp
  · intro J _ hJ; simp [hJ]

/-- **C93 (Hartree-Fock energy).**  With the `k` lowest active orbitals doubly occupied, the energy of the reference determinant in the active-space
Hamiltonian is the closed-shell Hartree-Fock energy of all `n = frozen + k` occupied orbitals, `E_nuc + 2 ∑ h_ii + ∑ (2 (ii|jj) - (ij|ji))`;
and the active-space Fock matrix is the full one. -/
theorem C93_hf_energy (o : DescSort) (D : PsiData) (hI : RealIntegrals D.oei D.tei) (M : PsiMolecule) (e : createPsiMol o D = .ok M) (k : ℕ) (hk : k ≤ D.nact) :
    ∃ DS : SQOperator, (∀ t ∈ DS, ‖t.1‖ ≤ 1e-12) ∧ ((M.sqHamiltonian ++ DS).map Prod.snd).Nodup ∧
      energy (2 * D.nact) (SQOperator.op M.sqHamiltonian + SQOperator.op DS) (Pi.single (2 ^ (2 * k) - 1) 1) =
        D.enuc + (2 * ∑ i ∈ Finset.range (D.frozenCore + k), D.oei i i +
          ∑ i ∈ Finset.range (D.frozenCore + k), ∑ j ∈ Finset.range (D.frozenCore + k), (2 * D.tei i i j j - D.tei i j j i)) ∧
      M.frozenCoreEnergy = coreEnergy D.frozenCore D.oei D.tei ∧
      ∀ i < D.nact, ∀ j < D.nact,
        psiOei D (D.frozenCore + i) (D.frozenCore + j) + ∑ l ∈ Finset.range k, (2 * D.tei (D.frozenCore + i) (D.frozenCore + j) (D.frozenCore + l) (D.frozenCore + l) -
          D.tei (D.frozenCore + i) (D.frozenCore + l) (D.frozenCore + l) (D.frozenCore + j)) =
        D.oei (D.frozenCore + i) (D.frozenCore + j) + ∑ l ∈ Finset.range (D.frozenCore + k), (2 * D.tei (D.frozenCore + i) (D.frozenCore + j) l l -
          D.tei (D.frozenCore + i) l l (D.frozenCore + j)) := by
  obtain ⟨_, _, _, _, _, _, _, _, _, hfc, ej⟩ := createPsi_ok e
  obtain ⟨hl, hb, h39⟩ := psi_live D
  obtain ⟨Q, R, DQ, f1, f2, _⟩ := jw_live o (psiSqHam D) hl h39
  rw [ej] at f1
  obtain ⟨rfl, rfl⟩ := Prod.mk.inj (Except.ok.inj f1)
  obtain ⟨R, DS, g1, g2, g3, g4, _, g6, g7⟩ := C35_simplify o (psiSqHam D)
  rw [f2] at g1
  obtain rfl := Except.ok.inj g1
  refine ⟨DS, g7, g4, ?_, hfc.trans (frozenCoreEnergy_eq D), ?_⟩
  · rw [← g2, psiSqHam_op D hI.right]
    unfold energy
    have hlt : 2 ^ (2 * k) - 1 < 2 ^ (2 * D.nact) := by
      have : 2 ^ (2 * k) ≤ 2 ^ (2 * D.nact) := Nat.pow_le_pow_right (by omega) (by omega)
      have := Nat.two_pow_pos (2 * k)
      omega
    rw [inner_single hlt, closed_shell_energy D.nact k hk _ _ _ fun _ _ _ _ => hI.swap _ _ _ _, Complex.ofReal_re, add_assoc, coreEnergy_add _ _ _ _ hI.swap]
    rfl
  · intro i hi j hj
    rw [psiOei_eq D hi hj]
    exact coreOei_add D.frozenCore k D.oei D.tei i j

end QF
