import Verif.Props.QSD
import Verif.Props.Jacobi
import Verif.Props.NtSrqk

/-!
C116: the energies of the Krylov methods do not increase when states are added.
-/
namespace QF

theorem ortho_form {n m : ℕ} {H : Op} {u : ℕ → St} {e : ℕ → ℝ} (h : ∀ i < m, ∀ j < m, inner n (u i) (H (u j)) = if i = j then (e j : ℂ) else 0) (c : ℕ → ℂ) :
    inner n (spanState m u c) (H (spanState m u c)) = ((∑ i ∈ Finset.range m, ‖c i‖ ^ 2 * e i : ℝ) : ℂ) := by
  rw [op_span, inner_span, Complex.ofReal_sum]
  refine Finset.sum_congr rfl fun i hi => ?_
  rw [Finset.sum_eq_single i]
  · rw [h i (Finset.mem_range.1 hi) i (Finset.mem_range.1 hi), if_pos rfl, show (starRingEnd ℂ) (c i) * (e i : ℂ) * c i = (c i * (starRingEnd ℂ) (c i)) * e i by ring,
      Complex.mul_conj, Complex.normSq_eq_norm_sq]
    push_cast; rfl
  · intro j hj hne
    rw [h i (Finset.mem_range.1 hi) j (Finset.mem_range.1 hj), if_neg (Ne.symm hne)]; ring
  · intro hn; exact absurd hi hn

theorem ortho_norm {n m : ℕ} {u : ℕ → St} (h : ∀ i < m, ∀ j < m, inner n (u i) (u j) = if i = j then 1 else 0) (c : ℕ → ℂ) :
    inner n (spanState m u c) (spanState m u c) = ((∑ i ∈ Finset.range m, ‖c i‖ ^ 2 : ℝ) : ℂ) := by
  have := ortho_form (H := 1) (e := fun _ => 1) (n := n) (m := m) (u := u) (by simpa using h) c
  simpa using this

/-- a combination of combinations -/
theorem span_comp (k m : ℕ) (φ : ℕ → St) (b : ℕ → ℕ → ℂ) (a : ℕ → ℂ) :
    spanState m (fun l => spanState k φ (b l)) a = spanState k φ (fun i => ∑ l ∈ Finset.range m, a l * b l i) := by
  unfold spanState
  simp only [Finset.smul_sum, Finset.sum_smul, smul_smul]
  exact Finset.sum_comm

/-- Cauchy's interlacing, the lower half: orthonormal states in which `H` is diagonal, inside the span of other such states -/
theorem interlace {n m m' : ℕ} {H : Op} {u u' : ℕ → St} {e e' : ℕ → ℝ}
    (o : ∀ i < m, ∀ j < m, inner n (u i) (u j) = if i = j then 1 else 0) (d : ∀ i < m, ∀ j < m, inner n (u i) (H (u j)) = if i = j then (e j : ℂ) else 0)
    (o' : ∀ i < m', ∀ j < m', inner n (u' i) (u' j) = if i = j then 1 else 0) (d' : ∀ i < m', ∀ j < m', inner n (u' i) (H (u' j)) = if i = j then (e' j : ℂ) else 0)
    (s : ∀ i j, i ≤ j → j < m → e i ≤ e j) (s' : ∀ i j, i ≤ j → j < m' → e' i ≤ e' j) (hsub : ∀ i < m, ∃ b, u i = spanState m' u' b) :
    ∀ j < m, j < m' ∧ e' j ≤ e j := by
  intro j hj
  choose b hb using hsub
  let B : ℕ → ℕ → ℂ := fun l => if h : l < m then b l h else 0
  have hB : ∀ l < m, u l = spanState m' u' (B l) := fun l hl => by
    have : B l = b l hl := dif_pos hl
    rw [this]; exact hb l hl
  let F : Matrix (Fin j) (Fin (j + 1)) ℂ := fun i l => B l i
  obtain ⟨v, hv, hv0⟩ : ∃ v : Fin (j + 1) → ℂ, F.mulVec v = 0 ∧ v ≠ 0 := by
    have hk : LinearMap.ker F.mulVecLin ≠ ⊥ := LinearMap.ker_ne_bot_of_finrank_lt (by simp)
    obtain ⟨v, h1, h2⟩ := (Submodule.ne_bot_iff _).1 hk
    exact ⟨v, h1, h2⟩
  let a : ℕ → ℂ := fun l => if h : l < j + 1 then v ⟨l, h⟩ else 0
  have ha : ∀ l (h : l < j + 1), a l = v ⟨l, h⟩ := fun l h => dif_pos h
  have oj : ∀ i < j + 1, ∀ l < j + 1, inner n (u i) (u l) = if i = l then 1 else 0 := fun i hi l hl => o i (by omega) l (by omega)
  have dj : ∀ i < j + 1, ∀ l < j + 1, inner n (u i) (H (u l)) = if i = l then (e l : ℂ) else 0 := fun i hi l hl => d i (by omega) l (by omega)
  let β : ℕ → ℂ := fun i => ∑ l ∈ Finset.range (j + 1), a l * B l i
  have hχ : spanState (j + 1) u a = spanState m' u' β := by
    rw [← span_comp]
    unfold spanState
    refine Finset.sum_congr rfl fun l hl => ?_
    rw [hB l (by have := Finset.mem_range.1 hl; omega)]
    rfl
  have hβ : ∀ i < j, β i = 0 := by
    intro i hi
    have := congrFun hv ⟨i, hi⟩
    rw [Matrix.mulVec, dotProduct, Pi.zero_apply] at this
    show ∑ l ∈ Finset.range (j + 1), a l * B l i = 0
    rw [Finset.sum_range, ← this]
    refine Finset.sum_congr rfl fun l _ => ?_
    rw [ha l l.2, mul_comm]
  have n1 := ortho_norm oj a
  have n2 := ortho_norm o' β
  have f1 := ortho_form dj a
  have f2 := ortho_form d' β
  rw [hχ, n2] at n1
  rw [hχ, f2] at f1
  have n1 : ∑ i ∈ Finset.range m', ‖β i‖ ^ 2 = ∑ l ∈ Finset.range (j + 1), ‖a l‖ ^ 2 := by exact_mod_cast n1
  have f1 : ∑ i ∈ Finset.range m', ‖β i‖ ^ 2 * e' i = ∑ l ∈ Finset.range (j + 1), ‖a l‖ ^ 2 * e l := by exact_mod_cast f1
  have hpos : 0 < ∑ l ∈ Finset.range (j + 1), ‖a l‖ ^ 2 := by
    obtain ⟨l, hl⟩ := Function.ne_iff.1 hv0
    refine Finset.sum_pos' (fun _ _ => by positivity) ⟨l, Finset.mem_range.2 l.2, ?_⟩
    have : a l ≠ 0 := by rw [ha l l.2]; exact hl
    positivity
  have hjm : j < m' := by
    by_contra hn
    rw [Finset.sum_eq_zero (fun i hi => by rw [hβ i (by have := Finset.mem_range.1 hi; omega)]; simp)] at n1
    rw [← n1] at hpos
    exact lt_irrefl _ hpos
  refine ⟨hjm, ?_⟩
  have up : ∑ l ∈ Finset.range (j + 1), ‖a l‖ ^ 2 * e l ≤ (∑ l ∈ Finset.range (j + 1), ‖a l‖ ^ 2) * e j := by
    rw [Finset.sum_mul]
    refine Finset.sum_le_sum fun l hl => mul_le_mul_of_nonneg_left (s l j ?_ hj) (by positivity)
    have := Finset.mem_range.1 hl; omega
  have low : (∑ i ∈ Finset.range m', ‖β i‖ ^ 2) * e' j ≤ ∑ i ∈ Finset.range m', ‖β i‖ ^ 2 * e' i := by
    rw [Finset.sum_mul]
    refine Finset.sum_le_sum fun i hi => ?_
    by_cases hij : i < j
    · rw [hβ i hij]; simp
    · exact mul_le_mul_of_nonneg_left (s' j i (by omega) (Finset.mem_range.1 hi)) (by positivity)
  rw [n1, f1] at low
  exact le_of_mul_le_mul_left (low.trans up) hpos

/-- in the order of any permutation of the energies the columns can be permuted too -/
theorem RitzPairs.perm {n k : ℕ} {H : Op} {φ : ℕ → St} {es es' : List ℂ} {C : ℕ → ℕ → ℂ} (h : RitzPairs n k H φ es C) (hp : es'.Perm es) :
    ∃ C', RitzPairs n k H φ es' C' := by
  have h0 : List.Forall₂ (fun z i => z = es.getD i 0) es (List.range es.length) := by
    refine List.forall₂_iff_get.2 ⟨by simp, fun i h1 h2 => ?_⟩
    simp [List.getD_eq_getElem?_getD, List.getElem?_eq_getElem h1]
  obtain ⟨l, hl, hF⟩ := List.perm_comp_forall₂ hp h0
  have len : l.length = es'.length := hl.length_eq.symm
  have nd : l.Nodup := hF.nodup_iff.2 List.nodup_range
  have hlt : ∀ i (hi : i < l.length), l[i] < es.length := fun i hi => List.mem_range.1 (hF.mem_iff.1 (List.getElem_mem hi))
  refine ⟨fun i j => C i (l.getD j 0), fun i hi j hj => ?_⟩
  have hi' : i < l.length := by omega
  have hj' : j < l.length := by omega
  have hz : es'.getD j 0 = es.getD l[j] 0 := by
    rw [List.getD_eq_getElem _ _ hj]
    have := (List.forall₂_iff_get.1 hl).2 j hj hj'
    simpa using this
  have hij : (l[i] = l[j]) ↔ i = j := nd.getElem_inj_iff
  obtain ⟨h1, h2⟩ := h l[i] (hlt i hi') l[j] (hlt j hj')
  simp only [List.getD_eq_getElem _ _ hi', List.getD_eq_getElem _ _ hj', hz]
  simp only [hij] at h1 h2
  exact ⟨h1, h2⟩

/-- what a run returns: sorted real energies with orthonormal states, as many as directions were kept -/
theorem run_ritz {eig : EigOracle} (hE : DescEig eig) {n k : ℕ} {H : Op} (hH : ∀ φ ψ, inner n φ (H ψ) = inner n (H φ) ψ) {φ : ℕ → St} {M : NMat × NMat}
    (hG : GramOf n k H φ M.1 M.2) {t : ℤ} {R : QsdResult} (h : qsdRun eig k t M = .ok R) :
    ∃ C, RitzPairs n k H φ R.eigenvalues C ∧ R.eigenvalues.Pairwise (fun a b => a.re ≤ b.re) ∧ (∀ z ∈ R.eigenvalues, z.im = 0) ∧
      R.eigenvalues.length = ((eig k M.1).1.filter fun z => open Classical in decide (1e-15 < z.re)).length := by
  obtain ⟨e, C, h1, h2, h3⟩ := C83_ritz hE hH hG
  obtain ⟨e', C', s1, s2, s3⟩ := C76_sorted_values eig k M.1 M.2 e C h1
  obtain ⟨C1, hC1⟩ := h3.perm s2
  unfold qsdRun at h
  rw [s1, except_ok_bind] at h
  simp only at h
  obtain ⟨a, -, h⟩ := bindOk h
  obtain ⟨b, -, h⟩ := bindOk h
  cases h
  refine ⟨C1, hC1, s3, fun z hz => ?_, by rw [s2.length_eq, h2]⟩
  obtain ⟨j, hj, rfl⟩ := List.getElem_of_mem hz
  have hb := (hC1 j hj j hj).2
  rw [if_pos rfl, List.getD_eq_getElem _ _ hj] at hb
  simp only
  rw [← hb]
  apply Complex.conj_eq_iff_im.1
  rw [inner_conj, hH]

/-- as many orthonormal states as vectors span everything -/
theorem ritz_span {n k : ℕ} {H : Op} {φ : ℕ → St} {es : List ℂ} {C : ℕ → ℕ → ℂ} (h : RitzPairs n k H φ es C) (hk : es.length = k) (c : ℕ → ℂ) :
    ∃ b, spanState k φ c = spanState k (fun j => spanState k φ (C · j)) b := by
  have gS : (NMat.mat k k C).conjTranspose * (NMat.mat k k (fun i j => inner n (φ i) (φ j)) * NMat.mat k k C) = 1 := by
    funext i j
    have := (h i (by rw [hk]; exact i.2) j (by rw [hk]; exact j.2)).1
    rw [form_eq (S := fun i j => inner n (φ i) (φ j)) (fun _ _ _ _ => rfl) C k i j i.2 j.2] at this
    rw [Matrix.one_apply]
    simpa [Fin.ext_iff] using this
  rw [← Matrix.mul_assoc] at gS
  have hMB := mul_eq_one_comm.1 gS
  set B := (NMat.mat k k C).conjTranspose * NMat.mat k k (fun i j => inner n (φ i) (φ j)) with hB
  refine ⟨fun l => if hl : l < k then B.mulVec (fun i => c i) ⟨l, hl⟩ else 0, ?_⟩
  rw [span_comp k k φ (fun j => (C · j))]
  unfold spanState
  refine Finset.sum_congr rfl fun i hi => ?_
  have hi := Finset.mem_range.1 hi
  congr 1
  have e := congrFun (congrArg (fun N : Matrix (Fin k) (Fin k) ℂ => N.mulVec fun i => c i) hMB) ⟨i, hi⟩
  simp only [Matrix.one_mulVec] at e
  rw [← Matrix.mulVec_mulVec] at e
  rw [← e, Matrix.mulVec, dotProduct]
  show _ = ∑ l ∈ Finset.range k, (if hl : l < k then B.mulVec (fun i => c i) ⟨l, hl⟩ else 0) * C i l
  rw [Finset.sum_range]
  refine Finset.sum_congr rfl fun l _ => ?_
  rw [dif_pos l.2, mul_comm]
  rfl

/-- C116, for any states: when the states of the first run are among those of the second and no direction of the second was dropped, no energy of the second is above the energy
of the same index of the first. -/
theorem C116_run {eig : EigOracle} (hE : DescEig eig) {n k k' : ℕ} {H : Op} (hH : ∀ φ ψ, inner n φ (H ψ) = inner n (H φ) ψ) {φ φ' : ℕ → St} {M M' : NMat × NMat}
    (hG : GramOf n k H φ M.1 M.2) (hG' : GramOf n k' H φ' M'.1 M'.2) (hsub : ∀ p < k, ∃ q < k', φ p = φ' q) (hfull : ∀ z ∈ (eig k' M'.1).1, 1e-15 < z.re)
    {t t' : ℤ} {R R' : QsdResult} (h : qsdRun eig k t M = .ok R) (h' : qsdRun eig k' t' M' = .ok R') :
    R.eigenvalues.length ≤ R'.eigenvalues.length ∧ ∀ (j : ℕ) (z z' : ℂ), R.eigenvalues[j]? = some z → R'.eigenvalues[j]? = some z' → z'.re ≤ z.re := by
  obtain ⟨C, h1, h2, h3, h4⟩ := run_ritz hE hH hG h
  obtain ⟨C', h1', h2', h3', h4'⟩ := run_ritz hE hH hG' h'
  have hSh : ∀ i < k', ∀ j < k', (starRingEnd ℂ) (M'.1 i j) = M'.1 j i := fun i hi j hj => by rw [hG'.overlap i hi j hj, hG'.overlap j hj i hi, inner_conj]
  have hk' : R'.eigenvalues.length = k' := by
    rw [h4', List.filter_eq_self.2 (by intro z hz; simpa using hfull z hz), (hE k' M'.1 hSh).1.1]
  have real : ∀ {l : List ℂ}, (∀ z ∈ l, z.im = 0) → ∀ j < l.length, l.getD j 0 = (((l.getD j 0).re : ℝ) : ℂ) := fun hl j hj => by
    rw [List.getD_eq_getElem _ _ hj]
    exact Complex.ext rfl (by rw [hl _ (List.getElem_mem hj)]; simp)
  have sorted : ∀ {l : List ℂ}, l.Pairwise (fun a b => a.re ≤ b.re) → ∀ i j, i ≤ j → j < l.length → (l.getD i 0).re ≤ (l.getD j 0).re := fun hl i j hij hj => by
    rcases hij.eq_or_lt with rfl | hlt
    · exact le_rfl
    · rw [List.getD_eq_getElem _ _ hj, List.getD_eq_getElem _ _ (by omega)]
      exact List.pairwise_iff_getElem.1 hl i j _ _ hlt
  have key := interlace (u := fun j => spanState k φ (C · j)) (u' := fun j => spanState k' φ' (C' · j)) (e := fun j => (R.eigenvalues.getD j 0).re)
    (e' := fun j => (R'.eigenvalues.getD j 0).re) (fun i hi j hj => (h1 i hi j hj).1)
    (fun i hi j hj => by rw [(h1 i hi j hj).2, ← real h3 j hj]) (m' := R'.eigenvalues.length) (fun i hi j hj => (h1' i hi j hj).1)
    (fun i hi j hj => by rw [(h1' i hi j hj).2, ← real h3' j hj]) (sorted h2) (sorted h2') (fun i _ => by
      have hc : ∃ c', spanState k φ (C · i) = spanState k' φ' c' := by
        choose q hq hqe using hsub
        refine ⟨fun r => ∑ p ∈ (Finset.range k).attach, if q p (Finset.mem_range.1 p.2) = r then C p i else 0, ?_⟩
        unfold spanState
        simp only [Finset.sum_smul]
        rw [Finset.sum_comm, ← Finset.sum_attach]
        refine Finset.sum_congr rfl fun p _ => ?_
        rw [Finset.sum_eq_single (q p (Finset.mem_range.1 p.2))]
        · rw [if_pos rfl, ← hqe p (Finset.mem_range.1 p.2)]
        · intro r _ hr
          rw [if_neg (Ne.symm hr), zero_smul]
        · intro hn
          exact absurd (Finset.mem_range.2 (hq p (Finset.mem_range.1 p.2))) hn
      obtain ⟨c', hc'⟩ := hc
      obtain ⟨b, hb⟩ := ritz_span h1' hk' c'
      refine ⟨b, ?_⟩
      rw [hc', hb, hk'])
  refine ⟨?_, fun j z z' hz hz' => ?_⟩
  · by_contra hlt
    exact lt_irrefl _ (key R'.eigenvalues.length (by omega)).1
  · obtain ⟨hj, rfl⟩ := List.getElem?_eq_some_iff.1 hz
    obtain ⟨hj', rfl⟩ := List.getElem?_eq_some_iff.1 hz'
    have := (key j hj).2
    simpa only [List.getD_eq_getElem _ _ hj, List.getD_eq_getElem _ _ hj'] using this

/-- the energies `R'` are those of a better approximation: there are at least as many, and none is above the energy of the same index in `R` -/
def Improves (R R' : QsdResult) : Prop :=
  R.eigenvalues.length ≤ R'.eigenvalues.length ∧ ∀ (j : ℕ) (z z' : ℂ), R.eigenvalues[j]? = some z → R'.eigenvalues[j]? = some z' → z'.re ≤ z.re

/-- C116: SRQK with more states: if no direction of the larger calculation is dropped, every energy is at most the one of the same index in the smaller calculation. -/
theorem C116_srqk {eig : EigOracle} (hE : DescEig eig) (A : QkAlg) (hA : A.Ready) (h0 : 1 ≤ A.nstates) (s' : ℕ) (hs : A.nstates ≤ s') {S' H' : NMat}
    (hm : ({ A with nstates := s' } : QkAlg).srqkMats = .ok (S', H')) (hfull : ∀ z ∈ (eig s' S').1, 1e-15 < z.re) {t t' : ℤ} {R R' : QsdResult}
    (h : A.srqkRun eig t = .ok R) (h' : ({ A with nstates := s' } : QkAlg).srqkRun eig t' = .ok R') : Improves R R' := by
  obtain ⟨S, H, ψ, e, hψ, hM⟩ := C77_srqk A hA h0
  obtain ⟨S1, H1, ψ', e', hψ', hM'⟩ := C77_srqk { A with nstates := s' } ⟨hA.prep, hA.ham, hA.steps⟩ (by simp only; omega)
  rw [hm] at e'
  cases e'
  have hψe : ψ' = ψ := funext fun m => (hψ' m).unique (hψ m)
  subst hψe
  unfold QkAlg.srqkRun at h h'
  rw [e, except_ok_bind] at h
  rw [hm, except_ok_bind] at h'
  exact C116_run hE (hermitian_of_real hA.ham) (φ := ψ') (φ' := ψ') (M := (S, H)) (M' := (S', H'))
    ⟨fun i hi j hj => (hM i hi j hj).1, fun i hi j hj => (hM i hi j hj).2⟩
    ⟨fun i hi j hj => (hM' i hi j hj).1, fun i hi j hj => (hM' i hi j hj).2⟩ (fun p hp => ⟨p, by show p < s'; omega, rfl⟩) hfull h h'

/-- C116: MRSQK with more references, more states per reference, or both -/
theorem C116_mrsqk {eig : EigOracle} (hE : DescEig eig) (A : QkAlg) (hA : A.Ready) (refs refs' : List (List ℕ)) (hR : ∀ r ∈ refs', Occ r ∧ r.length = A.nqb ∧ 1 ∈ r)
    (hsub : refs ⊆ refs') (hne : refs ≠ []) (h0 : 1 ≤ A.nstates) (s' : ℕ) (hs : A.nstates ≤ s') {S' H' : NMat}
    (hm : ({ A with nstates := s' } : QkAlg).mrsqkMats refs' = .ok (S', H')) (hfull : ∀ z ∈ (eig (refs'.length * s') S').1, 1e-15 < z.re) {t t' : ℤ} {R R' : QsdResult}
    (h : A.mrsqkRun eig refs t = .ok R) (h' : ({ A with nstates := s' } : QkAlg).mrsqkRun eig refs' t' = .ok R') : Improves R R' := by
  have hne' : refs' ≠ [] := fun h => hne (List.subset_nil.1 (h ▸ hsub))
  obtain ⟨S, H, ψ, φ, e, -, hψ, at1, hG, -, -⟩ := mrsqk_gram A hA refs (fun r hr => hR r (hsub hr)) hne h0
  obtain ⟨S1, H1, ψ', φ', e', -, hψ', at1', hG', -, -⟩ := mrsqk_gram { A with nstates := s' } ⟨hA.prep, hA.ham, hA.steps⟩ refs' hR hne' (by simp only; omega)
  rw [hm] at e'
  cases e'
  unfold QkAlg.mrsqkRun at h h'
  rw [e, except_ok_bind] at h
  rw [hm, except_ok_bind] at h'
  refine C116_run hE (hermitian_of_real hA.ham) hG hG' (fun p hp => ?_) hfull h h'
  have h1 : p / A.nstates < refs.length := Nat.div_lt_of_lt_mul (by rwa [mul_comm])
  have h2 : p % A.nstates < A.nstates := Nat.mod_lt _ (by omega)
  obtain ⟨i, hi, hir⟩ := List.getElem_of_mem (hsub (List.getElem_mem h1))
  refine ⟨i * s' + p % A.nstates, ?_, ?_⟩
  · have : (i + 1) * s' ≤ refs'.length * s' := Nat.mul_le_mul_right _ hi
    rw [Nat.add_mul, one_mul] at this
    show i * s' + p % A.nstates < refs'.length * s'
    omega
  · have a1 := at1 (p / A.nstates) refs[p / A.nstates] (List.getElem?_eq_getElem h1) _ h2
    have a2 := at1' i refs[p / A.nstates] (hir ▸ List.getElem?_eq_getElem hi) (p % A.nstates) (by simp only; omega)
    rw [Nat.div_add_mod'] at a1
    simp only at a2
    rw [a1, a2]
    exact (hψ _ (List.getElem_mem h1) _).unique (hψ' _ (hsub (List.getElem_mem h1)) _)

/-- C116: NTSRQK divides the total time `dt` by the number of states less one, so more states give lower energies when the time of one step stays the same. -/
theorem C116_ntsrqk {eig : EigOracle} (hE : DescEig eig) (expm : ExpmOracle) (hX : ExpmContract expm) (A : QkAlg) (hA : A.Ready) (hne : A.ham ≠ [])
    (hq : A.ham.numQubits = A.nqb) (h0 : 2 ≤ A.nstates) (s' : ℕ) (dt' : ℝ) (hs : A.nstates ≤ s') (hdt : dt' / (s' - 1) = A.dt / (A.nstates - 1)) {S' H' : NMat}
    (hm : ({ A with nstates := s', dt := dt' } : QkAlg).ntsrqkMats expm = .ok (S', H')) (hfull : ∀ z ∈ (eig s' S').1, 1e-15 < z.re) {t t' : ℤ} {R R' : QsdResult}
    (h : A.ntsrqkRun expm eig true t false = .ok R) (h' : ({ A with nstates := s', dt := dt' } : QkAlg).ntsrqkRun expm eig true t' false = .ok R') : Improves R R' := by
  obtain ⟨M, S, H, ψ, hM, -, e, hψ, hG⟩ := C77_ntsrqk expm hX A hA hne hq h0
  obtain ⟨M1, S1, H1, ψ', hM1, -, e', hψ', hG'⟩ := C77_ntsrqk expm hX { A with nstates := s', dt := dt' } ⟨hA.prep, hA.ham, hA.steps⟩ hne hq (by simp only; omega)
  rw [hm] at e'
  cases e'
  rw [hM] at hM1
  cases hM1
  unfold QkAlg.ntsrqkRun at h h'
  rw [if_neg (by simp), e, except_ok_bind, qsdFull_false] at h
  rw [if_neg (by simp), hm, except_ok_bind, qsdFull_false] at h'
  refine C116_run hE (hermitian_of_real hA.ham) (φ := ψ) (φ' := ψ') (M := (S, H)) (M' := (S', H'))
    ⟨fun i hi j hj => (hG i hi j hj).1, fun i hi j hj => (hG i hi j hj).2⟩
    ⟨fun i hi j hj => (hG' i hi j hj).1, fun i hi j hj => (hG' i hi j hj).2⟩ (fun p hp => ⟨p, by show p < s'; omega, funext fun I => ?_⟩) hfull h h'
  have h1 := hψ p hp I
  have h2 := hψ' p (by show p < s'; omega) I
  simp only at h2
  have ht : (p : ℝ) * dt' / (s' - 1) = p * A.dt / (A.nstates - 1) := by rw [mul_div_assoc, hdt, mul_div_assoc]
  rw [ht] at h2
  exact h1.unique h2

end QF
