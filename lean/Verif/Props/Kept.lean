import Verif.Props.KrylovMono
/-!
The space kept by `canonical_geig_solve`: it is spanned by all the eigenvectors of the overlap matrix with eigenvalue above 1e-15, whichever the solver returns.
-/
namespace QF

/-- `v` is an eigenvector of `S` with an eigenvalue above the threshold -/
def KeptVec (k : ℕ) (S : NMat) (v : ℕ → ℂ) : Prop := ∃ t : ℝ, 1e-15 < t ∧ ∀ i < k, ∑ p ∈ Finset.range k, S i p * v p = t * v i

/-- in an orthonormal basis of eigenvectors with descending eigenvalues, a kept vector has components only along the first ones -/
theorem kept_expand {k : ℕ} {S U : NMat} {s1 s2 : List ℂ} (h1 : EigOf k S (s1 ++ s2, U)) (h2 : Orthonormal' k k U) (p2 : ∀ z ∈ s2, z.re ≤ 1e-15)
    {v : ℕ → ℂ} (hv : KeptVec k S v) : ∃ a : ℕ → ℂ, ∀ i < k, v i = ∑ l ∈ Finset.range s1.length, a l * U i l := by
  obtain ⟨t, ht, he⟩ := hv
  have hl : s1.length + s2.length = k := by rw [← List.length_append]; exact h1.1
  have hU := mat_orthonormal h2
  have hU' := mul_eq_one_comm.1 hU
  set M := NMat.mat k k U with hM
  have hSM : NMat.mat k k S * M = M * Matrix.diagonal (fun j : Fin k => (s1 ++ s2).getD j 0) := by
    funext i j
    rw [Matrix.mul_diagonal, hM, ← mat_dot]
    show S.dot k U i j = U i j * _
    rw [h1.2 i i.2 j j.2, mul_comm]
  set w : Fin k → ℂ := fun i => v i with hw
  have hSw : (NMat.mat k k S).mulVec w = (t : ℂ) • w := by
    funext i
    rw [Matrix.mulVec, dotProduct, Pi.smul_apply, smul_eq_mul, ← he i i.2, Finset.sum_range]
    rfl
  set a := M.conjTranspose.mulVec w with ha
  have hwa : w = M.mulVec a := by rw [ha, Matrix.mulVec_mulVec, hU', Matrix.one_mulVec]
  have hda : (Matrix.diagonal (fun j : Fin k => (s1 ++ s2).getD j 0)).mulVec a = (t : ℂ) • a := by
    have : M.mulVec ((Matrix.diagonal (fun j : Fin k => (s1 ++ s2).getD j 0)).mulVec a) = M.mulVec ((t : ℂ) • a) := by
      rw [Matrix.mulVec_mulVec, ← hSM, ← Matrix.mulVec_mulVec, ← hwa, hSw, Matrix.mulVec_smul, ← hwa]
    have := congrArg M.conjTranspose.mulVec this
    simp only [Matrix.mulVec_mulVec, ← Matrix.mul_assoc, hU, Matrix.one_mul, Matrix.one_mulVec] at this
    exact this
  have hz : ∀ l : Fin k, s1.length ≤ l → a l = 0 := fun l hl' => by
    have e := congrFun hda l
    rw [Matrix.mulVec_diagonal, Pi.smul_apply, smul_eq_mul] at e
    have : ((s1 ++ s2).getD l 0 - (t : ℂ)) * a l = 0 := by rw [sub_mul, e, sub_self]
    refine (mul_eq_zero.1 this).resolve_left fun h => ?_
    have hlt : (l : ℕ) < (s1 ++ s2).length := by rw [List.length_append, hl]; exact l.2
    rw [List.getD_eq_getElem _ _ hlt, List.getElem_append_right hl'] at h
    have h3 := p2 _ (List.getElem_mem (l := s2) (n := l - s1.length) (by omega))
    rw [sub_eq_zero.1 h, Complex.ofReal_re] at h3
    linarith
  refine ⟨fun l => if h : l < k then a ⟨l, h⟩ else 0, fun i hi => ?_⟩
  have e := congrFun hwa ⟨i, hi⟩
  have e1 : v i = ∑ l ∈ Finset.range k, (if h : l < k then a ⟨l, h⟩ else 0) * U i l := by
    rw [show v i = w ⟨i, hi⟩ from rfl, e, Matrix.mulVec, dotProduct, Finset.sum_range]
    refine Finset.sum_congr rfl fun l _ => ?_
    rw [dif_pos l.2, mul_comm]; rfl
  rw [e1]
  symm
  refine Finset.sum_subset (fun l hl' => ?_) fun l hlk hn => ?_
  · have := Finset.mem_range.1 hl'; exact Finset.mem_range.2 (by omega)
  · have hlk := Finset.mem_range.1 hlk
    simp only [dif_pos hlk]
    rw [hz ⟨l, hlk⟩ (by simpa using hn), zero_mul]

/-- what a run returns: the Ritz problem in the span of the kept states, whatever number of directions is dropped -/
theorem run_kept {eig : EigOracle} (hE : DescEig eig) {n k : ℕ} {H : Op} (hH : ∀ φ ψ, inner n φ (H ψ) = inner n (H φ) ψ) {φ : ℕ → St} {M : NMat × NMat}
    (hG : GramOf n k H φ M.1 M.2) {t : ℤ} {R : QsdResult} (h : qsdRun eig k t M = .ok R) :
    ∃ (X : ℕ → ℕ → ℂ) (C : ℕ → ℕ → ℂ), RitzPairs n R.eigenvalues.length H (fun l => spanState k φ (X l)) R.eigenvalues C ∧
      R.eigenvalues.Pairwise (fun a b => a.re ≤ b.re) ∧ (∀ z ∈ R.eigenvalues, z.im = 0) ∧ (∀ l < R.eigenvalues.length, KeptVec k M.1 (X l)) ∧
      ∀ v, KeptVec k M.1 v → ∃ a, spanState k φ v = spanState R.eigenvalues.length (fun l => spanState k φ (X l)) a := by
  obtain ⟨S, Hm⟩ := M
  simp only at hG ⊢
  have hSh : ∀ i < k, ∀ j < k, (starRingEnd ℂ) (S i j) = S j i := fun i hi j hj => by rw [hG.overlap i hi j hj, hG.overlap j hj i hi, inner_conj]
  obtain ⟨h1, h2, h3⟩ := hE k S hSh
  obtain ⟨s1, s2, es, p1, p2⟩ := desc_split h3 1e-15
  obtain ⟨s, U, hsU⟩ : ∃ s U, eig k S = (s, U) := ⟨_, _, rfl⟩
  have him := eig_real hSh h1 h2
  rw [hsU] at h1 h2 him es
  simp only at h2 him es
  subst es
  have hl : s1.length ≤ k := by have := h1.1; simp at this; omega
  have hun := geig_unfold (H := Hm) hsU him p1 p2
  set X := scaled U (s1.map Complex.re) with hX
  have g1 := gram_scaled h1 h2 (fun z hz => him z (List.mem_append_left _ hz)) p1
  rw [← hX] at g1
  set m := s1.length with hm
  have hHm : NMat.mat m m ((X.dag.dot k Hm).dot k X) = (NMat.mat k m X).conjTranspose * (NMat.mat k k Hm * NMat.mat k m X) := by
    rw [mat_dot, mat_dot, mat_dag, Matrix.mul_assoc]
  -- the matrices of the kept states
  have kS : ∀ i < m, ∀ j < m, inner n (spanState k φ (X · i)) (spanState k φ (X · j)) = if i = j then 1 else 0 := fun i hi j hj => by
    rw [form_eq hG.overlap X m i j hi hj, g1, Matrix.one_apply]
    simp [Fin.ext_iff]
  have kH : ∀ i < m, ∀ j < m, inner n (spanState k φ (X · i)) (H (spanState k φ (X · j))) = ((X.dag.dot k Hm).dot k X) i j := fun i hi j hj => by
    rw [op_span, form_eq hG.ham X m i j hi hj, ← hHm]; rfl
  obtain ⟨r1, r2, -⟩ := hE m ((X.dag.dot k Hm).dot k X) (fun i hi j hj => by
    rw [← kH i hi j hj, ← kH j hj i hi, inner_conj, hH])
  have g2 := eig_diag r1 r2
  set r := eig m ((X.dag.dot k Hm).dot k X) with hr
  have hR : RitzPairs n m H (fun l => spanState k φ (X · l)) r.1 r.2 := by
    rw [RitzPairs, r1.1]
    intro i hi j hj
    constructor
    · rw [form_eq (S := fun i j => if i = j then 1 else 0) (fun i hi j hj => (kS i hi j hj).symm) r.2 m i j hi hj]
      have : NMat.mat m m (fun i j => if i = j then (1 : ℂ) else 0) = 1 := by
        funext a b
        rw [Matrix.one_apply]
        simp [NMat.mat, Fin.ext_iff]
      rw [this, Matrix.one_mul, mat_orthonormal r2, Matrix.one_apply]
      simp [Fin.ext_iff]
    · rw [op_span, form_eq (S := (X.dag.dot k Hm).dot k X) (fun i hi j hj => (kH i hi j hj).symm) r.2 m i j hi hj, g2, Matrix.diagonal_apply]
      simp only [Fin.mk.injEq]
      split_ifs with h
      · rw [h]
      · rfl
  obtain ⟨e', C', q1, q2, q3⟩ := C76_sorted_values eig k S Hm _ _ hun
  obtain ⟨C1, hC1⟩ := hR.perm q2
  unfold qsdRun at h
  rw [q1, except_ok_bind] at h
  simp only at h
  obtain ⟨a, -, h⟩ := bindOk h
  obtain ⟨b, -, h⟩ := bindOk h
  cases h
  have hlen : e'.length = m := by rw [q2.length_eq, r1.1]
  refine ⟨fun l => (X · l), C1, by rw [hlen]; exact hC1, q3, fun z hz => ?_, fun l hl' => ?_, fun v hv => ?_⟩
  · obtain ⟨j, hj, rfl⟩ := List.getElem_of_mem hz
    have hb := (hC1 j hj j hj).2
    rw [if_pos rfl, List.getD_eq_getElem _ _ hj] at hb
    simp only
    rw [← hb]
    apply Complex.conj_eq_iff_im.1
    rw [inner_conj, hH]
  · have hl' : l < m := by simpa [hlen] using hl'
    refine ⟨(s1[l]).re, p1 _ (List.getElem_mem _), fun i hi => ?_⟩
    have e := h1.2 i hi l (by omega)
    rw [List.getD_eq_getElem _ _ (by rw [List.length_append]; omega), List.getElem_append_left hl'] at e
    have ez : s1[l] = ((s1[l].re : ℝ) : ℂ) := Complex.ext rfl (by rw [him _ (List.mem_append_left _ (List.getElem_mem _))]; simp)
    rw [ez] at e
    simp only [hX, scaled, mul_div_assoc']
    rw [← Finset.sum_div]
    congr 1
  · obtain ⟨a, ha⟩ := kept_expand h1 h2 p2 hv
    have hs0 : ∀ l, l < m → ((Real.sqrt ((s1.map Complex.re).getD l 0) : ℝ) : ℂ) ≠ 0 := fun l hl' => by
      rw [List.getD_eq_getElem _ _ (by simpa using hl'), List.getElem_map]
      exact_mod_cast (Real.sqrt_pos.2 (lt_trans (by norm_num) (p1 _ (List.getElem_mem hl')))).ne'
    refine ⟨fun l => a l * ((Real.sqrt ((s1.map Complex.re).getD l 0) : ℝ) : ℂ), ?_⟩
    rw [show ({ eigenvalues := e', egs := _, ets := _, eigenvectors := _ } : QsdResult).eigenvalues.length = m from hlen, span_comp]
    unfold spanState
    refine Finset.sum_congr rfl fun i hi => ?_
    rw [ha i (Finset.mem_range.1 hi)]
    congr 1
    refine Finset.sum_congr rfl fun l hl' => ?_
    have := hs0 l (Finset.mem_range.1 hl')
    simp only [hX, scaled]
    rw [mul_assoc, mul_div_cancel₀ _ this]

/-- the Ritz values in a space are unique: two sets of states spanning the same space, with Hamiltonians `H` and `a H + c` -/
theorem ritz_affine {n : ℕ} {H H' : Op} {a c : ℝ} (ha : 0 < a) (hsψ : ∀ ψ, H' ψ = (a : ℂ) • H ψ + (c : ℂ) • ψ) {κ κ' : ℕ → St} {e e' : List ℂ} {C C' : ℕ → ℕ → ℂ}
    (h1 : RitzPairs n e.length H κ e C) (h2 : e.Pairwise (fun a b => a.re ≤ b.re)) (h3 : ∀ z ∈ e, z.im = 0)
    (h1' : RitzPairs n e'.length H' κ' e' C') (h2' : e'.Pairwise (fun a b => a.re ≤ b.re)) (h3' : ∀ z ∈ e', z.im = 0)
    (from' : ∀ l < e'.length, ∃ x, κ' l = spanState e.length κ x) (to' : ∀ l < e.length, ∃ x, κ l = spanState e'.length κ' x) :
    e' = e.map fun z => (a : ℂ) * z + (c : ℂ) := by
  have real : ∀ {l : List ℂ}, (∀ z ∈ l, z.im = 0) → ∀ j < l.length, l.getD j 0 = (((l.getD j 0).re : ℝ) : ℂ) := fun hl j hj => by
    rw [List.getD_eq_getElem _ _ hj]
    exact Complex.ext rfl (by rw [hl _ (List.getElem_mem hj)]; simp)
  have sorted : ∀ {l : List ℂ}, l.Pairwise (fun a b => a.re ≤ b.re) → ∀ i j, i ≤ j → j < l.length → (l.getD i 0).re ≤ (l.getD j 0).re := fun hl i j hij hj => by
    rcases hij.eq_or_lt with rfl | hlt
    · exact le_rfl
    · rw [List.getD_eq_getElem _ _ hj, List.getD_eq_getElem _ _ (by omega)]
      exact List.pairwise_iff_getElem.1 hl i j _ _ hlt
  set m := e.length with hm
  set m' := e'.length with hm'
  have sub : ∀ {a b : ℕ} {α β : ℕ → St}, (∀ l < a, ∃ d, α l = spanState b β d) → ∀ x, ∃ d, spanState a α x = spanState b β d := fun {a b α β} hl x => by
    choose d hd using hl
    refine ⟨fun i => ∑ l ∈ Finset.range a, x l * (if hl : l < a then d l hl else 0) i, ?_⟩
    rw [← span_comp]
    unfold spanState
    refine Finset.sum_congr rfl fun l hl => ?_
    have hl := Finset.mem_range.1 hl
    rw [hd l hl]
    simp only [dif_pos hl]
    rfl
  -- the diagonal of `H` in the second set of states
  have ha' : (a : ℂ) ≠ 0 := by exact_mod_cast ha.ne'
  have diag' : ∀ i < m', ∀ j < m', inner n (spanState m' κ' (C' · i)) (H (spanState m' κ' (C' · j))) =
      if i = j then (((((e'.getD j 0).re - c) / a : ℝ)) : ℂ) else 0 := fun i hi j hj => by
    have q := (h1' i hi j hj).2
    rw [hsψ, inner_add_right, inner_smul_right, inner_smul_right, (h1' i hi j hj).1] at q
    refine mul_left_cancel₀ ha' ?_
    by_cases hij : i = j
    · rw [if_pos hij] at q ⊢
      rw [if_pos hij] at q
      rw [real h3' j hj] at q
      push_cast
      rw [mul_div_cancel₀ _ ha']
      linear_combination q
    · rw [if_neg hij] at q ⊢
      rw [if_neg hij] at q
      simpa using q
  have up := interlace (u := fun j => spanState m κ (C · j)) (u' := fun j => spanState m' κ' (C' · j)) (e := fun j => (e.getD j 0).re)
    (e' := fun j => ((e'.getD j 0).re - c) / a) (m := m) (m' := m') (fun i hi j hj => (h1 i hi j hj).1)
    (fun i hi j hj => by rw [(h1 i hi j hj).2, ← real h3 j hj]) (fun i hi j hj => (h1' i hi j hj).1) diag' (sorted h2)
    (fun i j hij hj => by exact div_le_div_of_nonneg_right (sub_le_sub_right (sorted h2' i j hij hj) c) ha.le) (fun i _ => by
      obtain ⟨b, hb⟩ := sub to' (C · i)
      obtain ⟨d, hd⟩ := ritz_span h1' rfl b
      exact ⟨d, by rw [hb, hd]⟩)
  have down := interlace (u := fun j => spanState m' κ' (C' · j)) (u' := fun j => spanState m κ (C · j)) (e' := fun j => (e.getD j 0).re)
    (e := fun j => ((e'.getD j 0).re - c) / a) (m' := m) (m := m') (fun i hi j hj => (h1' i hi j hj).1) diag'
    (fun i hi j hj => (h1 i hi j hj).1)
    (fun i hi j hj => by rw [(h1 i hi j hj).2, ← real h3 j hj]) (fun i j hij hj => by exact div_le_div_of_nonneg_right (sub_le_sub_right (sorted h2' i j hij hj) c) ha.le) (sorted h2) (fun i _ => by
      obtain ⟨b, hb⟩ := sub from' (C' · i)
      obtain ⟨d, hd⟩ := ritz_span h1 rfl b
      exact ⟨d, by rw [hb, hd]⟩)
  have hlen : m' = m := by
    rcases Nat.lt_trichotomy m m' with hlt | he | hlt
    · exact absurd (down m hlt).1 (lt_irrefl _)
    · exact he.symm
    · exact absurd (up m' hlt).1 (lt_irrefl _)
  refine List.ext_getElem (by rw [List.length_map, ← hm, ← hm', hlen]) fun j hj hj' => ?_
  have hjm : j < m := by rw [← hlen]; exact hj
  have p := (up j hjm).2
  have q := (down j hj).2
  rw [List.getElem_map]
  have e1 := real h3 j hjm
  have e2 := real h3' j hj
  rw [List.getD_eq_getElem _ _ hjm] at e1 p q
  rw [List.getD_eq_getElem _ _ hj] at e2 p q
  have e3 : (e'[j].re - c) / a = e[j].re := le_antisymm p q
  rw [div_eq_iff ha.ne'] at e3
  rw [e1, e2, ← Complex.ofReal_mul, ← Complex.ofReal_add]
  congr 1
  linarith

/-- two runs whose kept states span the same space, with Hamiltonians `H` and `a H + c` -/
theorem affine_kept {eig : EigOracle} (hE : DescEig eig) {n k k' : ℕ} {H H' : Op} {a c : ℝ} (ha : 0 < a) (hs : H' = (a : ℂ) • H + (c : ℂ) • (1 : Op))
    (hH : ∀ φ ψ, inner n φ (H ψ) = inner n (H φ) ψ) {φ φ' : ℕ → St} {M M' : NMat × NMat} (hG : GramOf n k H φ M.1 M.2) (hG' : GramOf n k' H' φ' M'.1 M'.2)
    (hto : ∀ v, KeptVec k' M'.1 v → ∃ w, KeptVec k M.1 w ∧ spanState k' φ' v = spanState k φ w)
    (hfrom : ∀ v, KeptVec k M.1 v → ∃ w, KeptVec k' M'.1 w ∧ spanState k φ v = spanState k' φ' w) {t t' : ℤ} {R R' : QsdResult}
    (h : qsdRun eig k t M = .ok R) (h' : qsdRun eig k' t' M' = .ok R') : R'.eigenvalues = R.eigenvalues.map fun z => (a : ℂ) * z + (c : ℂ) := by
  have hsψ : ∀ ψ, H' ψ = (a : ℂ) • H ψ + (c : ℂ) • ψ := fun ψ => by rw [hs]; rfl
  have hH' : ∀ φ ψ, inner n φ (H' ψ) = inner n (H' φ) ψ := fun φ ψ => by
    rw [hsψ, hsψ, inner_add_right, inner_add_left, inner_smul_right, inner_smul_left', inner_smul_right, inner_smul_left', hH, Complex.conj_ofReal, Complex.conj_ofReal]
  obtain ⟨X, C, h1, h2, h3, hX, hKX⟩ := run_kept hE hH hG h
  obtain ⟨X', C', h1', h2', h3', hX', hKX'⟩ := run_kept hE hH' hG' h'
  set κ : ℕ → St := fun l => spanState k φ (X l) with hκ
  set κ' : ℕ → St := fun l => spanState k' φ' (X' l) with hκ'
  refine ritz_affine ha hsψ h1 h2 h3 h1' h2' h3' (fun l hl => ?_) fun l hl => ?_
  · obtain ⟨w, hw, e⟩ := hto _ (hX' l hl)
    obtain ⟨x, hx⟩ := hKX _ hw
    exact ⟨x, by rw [← hx, ← e]⟩
  · obtain ⟨w, hw, e⟩ := hfrom _ (hX l hl)
    obtain ⟨x, hx⟩ := hKX' _ hw
    exact ⟨x, by rw [← hx, ← e]⟩

end QF
