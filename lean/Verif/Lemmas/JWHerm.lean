import Verif.Props.JW
import Verif.Props.TaperUnitary
import Verif.Lemmas.Support
import Verif.Lemmas.SQNormal
import Verif.Props.UccGradient3
import Verif.Props.QitePool

/-!
The Jordan-Wigner transform of a Hamiltonian: terms that repeat an index are allowed when their coefficient is zero, and a
self-adjoint operator gets real coefficients.
-/
namespace QF
open SQOperator (DescSort jwTransform simplify Key klt buildMap CanonStep canonStep_sum)

/-- an operator is determined by its adjoint on all large registers -/
theorem adj_unique {n : ℕ} {A B B' : Op} (h : ∀ m, n ≤ m → IsAdj m A B) (h' : ∀ m, n ≤ m → IsAdj m A B') : B = B' := by
  refine Op.ext' fun φ I => ?_
  obtain ⟨m, hm, hI⟩ : ∃ m, n ≤ m ∧ I < 2 ^ m := ⟨n + I + 1, by omega, lt_of_lt_of_le Nat.lt_two_pow_self (Nat.pow_le_pow_right (by omega) (by omega))⟩
  have e : inner m (B φ) (Pi.single I 1) = inner m (B' φ) (Pi.single I 1) := by rw [← h m hm, ← h' m hm]
  have hs : ∀ χ : St, inner m χ (Pi.single I 1) = (starRingEnd ℂ) (χ I) := fun χ => by
    unfold inner
    rw [Finset.sum_eq_single_of_mem I (by simpa using hI)]
    · simp
    · intro J _ hJ; simp [hJ]
  rw [hs, hs] at e
  exact (starRingEnd ℂ).injective e

/-- terms that repeat no index, or have coefficient zero -/
def SQOperator.Live (A : SQOperator) : Prop := ∀ t ∈ A, t.1 = 0 ∨ (t.2.1.Nodup ∧ t.2.2.Nodup)

/-- conservation of the number of particles, in the sense of the index lists, and indices below `n` -/
def SQOperator.Balanced (n : ℕ) (A : SQOperator) : Prop := ∀ t ∈ A, t.2.1.length = t.2.2.length ∧ (∀ p ∈ t.2.1, p < n) ∧ ∀ p ∈ t.2.2, p < n

/-- every term of the simplified operator comes from a term with a non-zero coefficient -/
theorem simplify_support (o : DescSort) {A R : SQOperator} (e : simplify o A = .ok R) :
    ∀ t ∈ R, ∃ u ∈ A, u.1 ≠ 0 ∧ t.2.1.Perm u.2.1 ∧ t.2.2.Perm u.2.2 := by
  classical
  obtain ⟨A', ea, h⟩ := SQOperator.canonicalOrder_ok o A
  rw [simplify_eq o A A' ea] at e
  have e := Except.ok.inj e
  subst e
  intro t ht
  obtain ⟨x, hx, rfl⟩ := List.mem_map.1 ht
  obtain ⟨hx, hv⟩ := List.mem_filter.1 hx
  have hv0 : coefS A' x.1 ≠ 0 := by
    rw [← buildMap_value hx]
    intro h0
    rw [h0] at hv
    simp at hv
    norm_num at hv
  obtain ⟨u, hu, hu0, hk⟩ : ∃ u ∈ A', u.1 ≠ 0 ∧ u.2 = x.1 := by
    by_contra hne
    push Not at hne
    apply hv0
    unfold coefS
    apply List.sum_eq_zero
    intro z hz
    obtain ⟨u, hu, rfl⟩ := List.mem_map.1 hz
    by_cases h0 : u.1 = 0
    · simp [h0]
    · rw [if_neg (hne u hu h0), smul_zero]
  obtain ⟨w, hw, hs⟩ := forall2_mem_right h hu
  refine ⟨w, hw, ?_, ?_, ?_⟩
  · rcases hs.coef with e | e <;> rw [e] at hu0
    · exact hu0
    · exact fun h0 => hu0 (by rw [h0, neg_zero])
  · show x.1.1.Perm _
    rw [← hk]; exact hs.cre
  · show x.1.2.Perm _
    rw [← hk]; exact hs.ann

/-- the Jordan-Wigner transform of an operator whose non-zero terms repeat no index -/
theorem jw_live (o : DescSort) (A : SQOperator) (hd : A.Live) (hl : ∀ t ∈ A, t.2.1.length + t.2.2.length ≤ 39) :
    ∃ (Q : QubitOperator) (R : SQOperator) (DQ : QubitOperator), jwTransform o A false = .ok (Q, R) ∧ simplify o A = .ok R ∧
      SQOperator.op R = Q.opLR + QubitOperator.opLR DQ ∧ Q.Normal ∧ (∀ t ∈ Q, 1e-12 < ‖t.1‖) ∧ (∀ t ∈ DQ, t.2.Canonical) ∧
      ((Q ++ DQ).map Prod.snd).Nodup ∧ ∀ t ∈ DQ, ‖t.1‖ ≤ 1e-12 := by
  obtain ⟨R, D, e1, _, h2, _⟩ := C35_simplify o A
  have hR : ∀ t ∈ R, t.2.1.Nodup ∧ t.2.2.Nodup ∧ t.2.1.length + t.2.2.length ≤ 39 := by
    intro t ht
    obtain ⟨u, hu, h0, p1, p2⟩ := simplify_support o e1 t ht
    have := (hd u hu).resolve_left h0
    exact ⟨p1.nodup_iff.2 this.1, p2.nodup_iff.2 this.2, by rw [p1.length_eq, p2.length_eq]; exact hl u hu⟩
  obtain ⟨qo, e2, o2, p2, l2⟩ := jw_fold false R [] hR (by simp)
  obtain ⟨Q, DQ, e3, o3, nQ, cD, nd, hs1, hs2, _⟩ := C20_simplify qo (isPauli_of_circuits p2)
  refine ⟨Q, R, DQ, ?_, e1, ?_, nQ, hs1, cD, nd, hs2⟩
  · unfold jwTransform
    rw [e1, except_ok_bind]
    erw [e2]
    rw [except_ok_bind, e3]
    rfl
  · rw [← o3, o2]; simp [QubitOperator.opLR]; rfl

/-- the formal adjoint: conjugate coefficients, creation and annihilation lists exchanged -/
noncomputable def dagTerms (A : SQOperator) : SQOperator := A.map fun t => ((starRingEnd ℂ) t.1, t.2.2, t.2.1)

theorem dagTerms_adj {n : ℕ} {A : SQOperator} (h : A.Balanced n) (hd : A.Live) (m : ℕ) (hm : n ≤ m) : IsAdj m A.op (dagTerms A).op := by
  induction A with
  | nil => intro φ ψ; simp [SQOperator.op, dagTerms, inner]
  | cons t A ih =>
    have e1 : SQOperator.op (t :: A) = t.1 • fermiString t.2.1 t.2.2 + SQOperator.op A := by simp [SQOperator.op]
    have e2 : SQOperator.op (dagTerms (t :: A)) = (starRingEnd ℂ) t.1 • fermiString t.2.2 t.2.1 + SQOperator.op (dagTerms A) := by
      simp [SQOperator.op, dagTerms]
    rw [e1, e2]
    refine IsAdj.addOps ?_ (ih (fun t ht => h t (by simp [ht])) fun t ht => hd t (by simp [ht]))
    obtain ⟨h1, h2, h3⟩ := h t (by simp)
    rcases hd t (by simp) with h0 | ⟨n1, n2⟩
    · rw [h0, zero_smul, map_zero, zero_smul]
      intro φ ψ; simp [inner]
    · have := (IsAdj.fermiString (n := m) (fun p hp => lt_of_lt_of_le (h2 p hp) hm) fun p hp => lt_of_lt_of_le (h3 p hp) hm).smul t.1
      rwa [fermiString_reverse n2 n1 h1.symm] at this

theorem coefS_filter (A : SQOperator) (s : Key) : coefS (A.filter fun t => decide (t.1 ≠ 0)) s = coefS A s := by
  classical
  unfold coefS
  induction A with
  | nil => rfl
  | cons t A ih =>
    by_cases h : t.1 = 0
    · rw [List.filter_cons_of_neg (by simpa using h), List.map_cons, List.sum_cons, ih, h, zero_smul, zero_add]
    · rw [List.filter_cons_of_pos (by simpa using h), List.map_cons, List.map_cons, List.sum_cons, List.sum_cons, ih]

theorem op_filter (A : SQOperator) : SQOperator.op (A.filter fun t => decide (t.1 ≠ 0)) = SQOperator.op A := by
  unfold SQOperator.op
  induction A with
  | nil => rfl
  | cons t A ih =>
    by_cases h : t.1 = 0
    · rw [List.filter_cons_of_neg (by simpa using h), List.map_cons, List.sum_cons, ih, h, zero_smul, zero_add]
    · rw [List.filter_cons_of_pos (by simpa using h), List.map_cons, List.map_cons, List.sum_cons, List.sum_cons, ih]

theorem coefS_dag (A : SQOperator) (s : Key) : coefS (dagTerms A) s = (starRingEnd ℂ) (coefS A (s.2, s.1)) := by
  classical
  unfold coefS dagTerms
  induction A with
  | nil => simp
  | cons t A ih =>
    simp only [List.map_cons, List.sum_cons, map_add] at ih ⊢
    rw [ih]
    congr 1
    have : ((t.2.2, t.2.1) = s) ↔ (t.2 = (s.2, s.1)) := by
      constructor
      · rintro rfl; rfl
      · intro e; rw [e]
    by_cases h : t.2 = (s.2, s.1)
    · rw [if_pos (this.2 h), if_pos h]; simp
    · rw [if_neg (fun e => h (this.1 e)), if_neg h]; simp

/-- the simplified form of a self-adjoint operator contains with each term its adjoint -/
theorem simplify_selfadj (o : DescSort) {n : ℕ} {A R : SQOperator} (hb : A.Balanced n) (hd : A.Live) (hH : ∀ m, n ≤ m → HermitianOn m A.op)
    (e : simplify o A = .ok R) : (dagTerms R).Perm R ∧ R.Balanced n ∧ R.Live := by
  classical
  have hsup := simplify_support o e
  have hRb : R.Balanced n := by
    intro t ht
    obtain ⟨u, hu, _, p1, p2⟩ := hsup t ht
    obtain ⟨h1, h2, h3⟩ := hb u hu
    exact ⟨by rw [p1.length_eq, p2.length_eq, h1], fun p hp => h2 p (p1.mem_iff.1 hp), fun p hp => h3 p (p2.mem_iff.1 hp)⟩
  have hRl : R.Live := by
    intro t ht
    obtain ⟨u, hu, h0, p1, p2⟩ := hsup t ht
    have := (hd u hu).resolve_left h0
    exact .inr ⟨p1.nodup_iff.2 this.1, p2.nodup_iff.2 this.2⟩
  refine ⟨?_, hRb, hRl⟩
  obtain ⟨A', ea, h⟩ := SQOperator.canonicalOrder_ok o A
  rw [simplify_eq o A A' ea] at e
  have e := Except.ok.inj e
  set B : SQOperator := A'.filter fun t => decide (t.1 ≠ 0) with hB
  have hBmem : ∀ t ∈ B, ∃ w ∈ A, w.1 ≠ 0 ∧ CanonStep w t := by
    intro t ht
    obtain ⟨ht, h0⟩ := List.mem_filter.1 ht
    obtain ⟨w, hw, hs⟩ := forall2_mem_right h ht
    refine ⟨w, hw, ?_, hs⟩
    intro hw0
    apply of_decide_eq_true h0
    rcases hs.coef with e | e <;> rw [e, hw0]
    exact neg_zero
  have hBs : ∀ t ∈ B, SDesc t.2 := by
    intro t ht
    obtain ⟨w, hw, h0, hs⟩ := hBmem t ht
    obtain ⟨d1, d2⟩ := (hd w hw).resolve_left h0
    have n1 : t.2.1.Nodup := hs.cre.nodup_iff.2 d1
    have n2 : t.2.2.Nodup := hs.ann.nodup_iff.2 d2
    constructor
    · exact (hs.desc.1.and (List.nodup_iff_pairwise_ne.1 n1)).imp (fun h => lt_of_le_of_ne h.1 (Ne.symm h.2))
    · exact (hs.desc.2.and (List.nodup_iff_pairwise_ne.1 n2)).imp (fun h => lt_of_le_of_ne h.1 (Ne.symm h.2))
  have hBb : SQOperator.Balanced n B := by
    intro t ht
    obtain ⟨w, hw, _, hs⟩ := hBmem t ht
    obtain ⟨h1, h2, h3⟩ := hb w hw
    exact ⟨by rw [hs.cre.length_eq, hs.ann.length_eq, h1], fun p hp => h2 p (hs.cre.mem_iff.1 hp), fun p hp => h3 p (hs.ann.mem_iff.1 hp)⟩
  have hBl : SQOperator.Live B := fun t ht => .inr ⟨sdesc_nodup (hBs t ht).1, sdesc_nodup (hBs t ht).2⟩
  have hBop : SQOperator.op B = SQOperator.op A := by rw [hB, op_filter, canonStep_sum h]
  have hdag : SQOperator.op B = SQOperator.op (dagTerms B) := by
    refine adj_unique (n := n) (A := SQOperator.op B) (fun m hm => ?_) (dagTerms_adj hBb hBl)
    rw [hBop]; exact hH m hm
  have hsym : ∀ s : Key, coefS A' s = (starRingEnd ℂ) (coefS A' (s.2, s.1)) := by
    intro s
    rw [← coefS_filter A' s, ← coefS_filter A' (s.2, s.1), ← hB, ← coefS_dag]
    exact coefS_determined hBs (by
      intro t ht
      obtain ⟨u, hu, rfl⟩ := List.mem_map.1 ht
      exact ⟨(hBs u hu).2, (hBs u hu).1⟩) hdag s
  have hmem : ∀ t : SQTerm, t ∈ R ↔ t.1 = coefS A' t.2 ∧ 1e-12 < ‖t.1‖ := by
    intro t
    rw [← e]
    constructor
    · intro ht
      obtain ⟨x, hx, rfl⟩ := List.mem_map.1 ht
      obtain ⟨hx, hv⟩ := List.mem_filter.1 hx
      exact ⟨buildMap_value hx, by simpa using hv⟩
    · rintro ⟨h1, h2⟩
      have hk : t.2 ∈ A'.map Prod.snd := by
        by_contra hne
        rw [coefS_not_mem hne] at h1
        rw [h1] at h2; norm_num at h2
      rw [← (SQOperator.buildMap_facts A').2.1] at hk
      obtain ⟨x, hx, hk⟩ := List.mem_map.1 hk
      refine List.mem_map.2 ⟨x, List.mem_filter.2 ⟨hx, ?_⟩, ?_⟩
      · rw [buildMap_value hx, hk, ← h1]; simpa using h2
      · rw [buildMap_value hx, hk, ← h1]
  have hnd : R.Nodup := by
    rw [← e]
    have : (((buildMap A').filter fun e => decide (‖e.2‖ > 1e-12)).map Prod.fst).Nodup := (buildMap_nodup A').sublist (List.filter_sublist.map _)
    refine (List.Nodup.of_map _ this).map ?_
    intro a b hab
    simp only [Prod.mk.injEq] at hab
    exact Prod.ext hab.2 hab.1
  unfold dagTerms
  rw [List.perm_ext_iff_of_nodup (hnd.map (by
    intro a b hab
    simp only [Prod.mk.injEq] at hab
    exact Prod.ext ((starRingEnd ℂ).injective hab.1) (Prod.ext hab.2.2 hab.2.1))) hnd]
  have hswap : ∀ t ∈ R, ((starRingEnd ℂ) t.1, t.2.2, t.2.1) ∈ R := by
    intro t ht
    obtain ⟨h1, h2⟩ := (hmem t).1 ht
    refine (hmem _).2 ⟨?_, by simpa using h2⟩
    rw [hsym, h1]
  intro t
  constructor
  · intro ht
    obtain ⟨u, hu, rfl⟩ := List.mem_map.1 ht
    exact hswap u hu
  · intro ht
    refine List.mem_map.2 ⟨_, hswap t ht, ?_⟩
    simp

/-- the Jordan-Wigner transform of a self-adjoint operator has real coefficients and acts on the register -/
theorem jw_real (o : DescSort) {n : ℕ} {A : SQOperator} (hb : A.Balanced n) (hd : A.Live) (hl : ∀ t ∈ A, t.2.1.length + t.2.2.length ≤ 39)
    (hH : ∀ m, n ≤ m → HermitianOn m A.op) {Q : QubitOperator} {R : SQOperator} (e : jwTransform o A false = .ok (Q, R)) :
    (∀ t ∈ Q, t.1.im = 0 ∧ t.2.PauliString n) ∧ ∀ m, n ≤ m → HermitianOn m R.op := by
  obtain ⟨Q', R', DQ, e1, e2, e3, nQ, hQ, cD, nd, hD⟩ := jw_live o A hd hl
  rw [e1] at e
  have e := Prod.mk.inj (Except.ok.inj e)
  obtain ⟨rfl, rfl⟩ := e
  obtain ⟨hp, hRb, hRl⟩ := simplify_selfadj o hb hd hH e2
  have hRop : SQOperator.op (dagTerms R') = SQOperator.op R' := by
    unfold SQOperator.op
    exact (hp.map _).sum_eq
  have hRH : ∀ m, n ≤ m → HermitianOn m R'.op := by
    intro m hm
    have := dagTerms_adj hRb hRl m hm
    rw [hRop] at this
    exact this
  have hact : ActsBelow n R'.op := by
    refine ActsBelow.sum ?_
    intro X hX
    obtain ⟨t, ht, rfl⟩ := List.mem_map.1 hX
    exact (acts_fermi (hRb t ht).2.1 (hRb t ht).2.2).smul _
  set F : QubitOperator := Q' ++ DQ with hF
  have hFc : ∀ t ∈ F, t.2.Canonical := by
    intro t ht
    rcases List.mem_append.1 ht with h | h
    · exact nQ.canonical t h
    · exact cD t h
  have hFop : F.opLR = R'.op := by
    rw [e3]; simp [hF, QubitOperator.opLR]
  have hfit := support_strings hFc nd (hFop ▸ hact)
  have hconj : ∀ t ∈ F, (starRingEnd ℂ) t.1 = t.1 := by
    refine recoef_eq hFc nd (fun t => (starRingEnd ℂ) t.1) Prod.fst ?_
    have self : recoef F Prod.fst = F := by simp [recoef]
    rw [self]
    refine adj_unique (n := n) (A := F.opLR) (fun m hm => ?_) (fun m hm => hFop ▸ hRH m hm)
    have key : ∀ F : QubitOperator, (∀ t ∈ F, t.2.Canonical) → (∀ t ∈ F, t.1 ≠ 0 → ∀ g ∈ t.2, g.target < n) →
        IsAdj m F.opLR (recoef F fun t => (starRingEnd ℂ) t.1).opLR := ?_
    · exact key F hFc hfit
    intro F
    induction F with
    | nil => intro _ _ φ ψ; simp [recoef, QubitOperator.opLR, inner]
    | cons t F ih =>
      intro hFc hfit
      have s1 : QubitOperator.opLR (t :: F) = t.1 • t.2.opLR + QubitOperator.opLR F := by simp [QubitOperator.opLR]
      have s2 : (recoef (t :: F) fun t => (starRingEnd ℂ) t.1).opLR = (starRingEnd ℂ) t.1 • t.2.opLR + (recoef F fun t => (starRingEnd ℂ) t.1).opLR := by
        simp [recoef, QubitOperator.opLR]
      rw [s1, s2]
      refine IsAdj.addOps ?_ (ih (fun t ht => hFc t (by simp [ht])) (fun t ht => hfit t (by simp [ht])))
      by_cases h0 : t.1 = 0
      · rw [h0, zero_smul, map_zero, zero_smul]
        intro φ ψ; simp [inner]
      · exact (IsAdj.canonical (hFc t (by simp)) fun g hg => lt_of_lt_of_le (hfit t (by simp) h0 g hg) hm).smul t.1
  refine ⟨fun t ht => ?_, hRH⟩
  have htF : t ∈ F := List.mem_append_left _ ht
  have h0 : t.1 ≠ 0 := by
    intro h0
    have := hQ t ht
    rw [h0] at this; norm_num at this
  refine ⟨Complex.conj_eq_iff_im.1 (hconj t htF), ?_⟩
  exact QiteAlg.canonical_pauliString (hFc t htF) (hfit t htF h0)

end QF
