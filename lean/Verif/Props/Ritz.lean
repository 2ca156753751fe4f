import Verif.Props.GEig
import Verif.Spec.Ritz
import Verif.Lemmas.GramLsq
import Mathlib.Analysis.Matrix.Spectrum
import Mathlib.Data.Fin.Tuple.Sort

/-!
C83: the energies of the quantum subspace methods are variational.
-/
namespace QF

/-- what is assumed of `scipy.linalg.eig` on Hermitian matrices: eigenvalues, in decreasing order, with orthonormal eigenvectors -/
def DescEig (eig : EigOracle) : Prop := ∀ (n : ℕ) (A : NMat), (∀ i < n, ∀ j < n, (starRingEnd ℂ) (A i j) = A j i) →
  EigOf n A (eig n A) ∧ Orthonormal' n n (eig n A).2 ∧ (eig n A).1.Pairwise (fun a b => b.re ≤ a.re)

theorem herm_mat {n : ℕ} {A : NMat} (h : ∀ i < n, ∀ j < n, (starRingEnd ℂ) (A i j) = A j i) : (NMat.mat n n A).conjTranspose = NMat.mat n n A := by
  funext i j
  rw [Matrix.conjTranspose_apply]
  exact h j j.2 i i.2

/-- the eigenvalues are the diagonal of `U† A U` -/
theorem eig_diag {n : ℕ} {A : NMat} {r : List ℂ × NMat} (h : EigOf n A r) (hU : Orthonormal' n n r.2) :
    (NMat.mat n n r.2).conjTranspose * (NMat.mat n n A * NMat.mat n n r.2) = Matrix.diagonal (fun j : Fin n => r.1.getD j 0) := by
  rw [mat_eig h, ← Matrix.mul_assoc, mat_orthonormal hU, Matrix.one_mul]

theorem eig_real {n : ℕ} {A : NMat} {r : List ℂ × NMat} (hA : ∀ i < n, ∀ j < n, (starRingEnd ℂ) (A i j) = A j i) (h : EigOf n A r) (hU : Orthonormal' n n r.2) :
    ∀ z ∈ r.1, z.im = 0 := by
  intro z hz
  obtain ⟨j, hj, rfl⟩ := List.getElem_of_mem hz
  have e := eig_diag h hU
  have e' := congrArg Matrix.conjTranspose e
  rw [Matrix.conjTranspose_mul, Matrix.conjTranspose_mul, Matrix.conjTranspose_conjTranspose, herm_mat hA, Matrix.mul_assoc, e, Matrix.diagonal_conjTranspose] at e'
  have hj' : j < n := by rw [← h.1]; exact hj
  have := congrFun (congrFun e' ⟨j, hj'⟩) ⟨j, hj'⟩
  rw [Matrix.diagonal_apply_eq, Matrix.diagonal_apply_eq] at this
  simp only [Pi.star_apply, List.getD_eq_getElem _ _ hj] at this
  exact Complex.conj_eq_iff_im.1 this.symm

theorem desc_split {s : List ℂ} (h : s.Pairwise (fun a b => b.re ≤ a.re)) (t : ℝ) : ∃ s1 s2, s = s1 ++ s2 ∧ (∀ z ∈ s1, t < z.re) ∧ ∀ z ∈ s2, z.re ≤ t := by
  induction s with
  | nil => exact ⟨[], [], rfl, by simp, by simp⟩
  | cons a s ih =>
    rw [List.pairwise_cons] at h
    by_cases ha : t < a.re
    · obtain ⟨s1, s2, rfl, h1, h2⟩ := ih h.2
      exact ⟨a :: s1, s2, rfl, by simpa using ⟨ha, h1⟩, h2⟩
    · exact ⟨[], a :: s, rfl, by simp, by
        intro z hz
        rcases List.mem_cons.1 hz with rfl | hz
        · exact not_lt.1 ha
        · exact (h.1 z hz).trans (not_lt.1 ha)⟩

theorem inner_span (n k : ℕ) (φ χ : ℕ → St) (c d : ℕ → ℂ) : inner n (spanState k φ c) (spanState k χ d) =
    ∑ i ∈ Finset.range k, ∑ j ∈ Finset.range k, (starRingEnd ℂ) (c i) * inner n (φ i) (χ j) * d j := by
  unfold spanState
  rw [inner_sum_left]
  refine Finset.sum_congr rfl fun i _ => ?_
  rw [inner_sum_right]
  refine Finset.sum_congr rfl fun j _ => ?_
  unfold inner
  rw [Finset.mul_sum, Finset.sum_mul]
  refine Finset.sum_congr rfl fun I _ => ?_
  simp only [Pi.smul_apply, smul_eq_mul, map_mul]; ring

theorem op_span (H : Op) (k : ℕ) (φ : ℕ → St) (c : ℕ → ℂ) : H (spanState k φ c) = spanState k (fun i => H (φ i)) c := by
  unfold spanState
  rw [map_sum]
  exact Finset.sum_congr rfl fun i _ => by rw [map_smul]

/-- the matrices of the quadratic forms -/
structure GramOf (n k : ℕ) (H : Op) (φ : ℕ → St) (S Hm : NMat) : Prop where
  overlap : ∀ i < k, ∀ j < k, S i j = inner n (φ i) (φ j)
  ham : ∀ i < k, ∀ j < k, Hm i j = inner n (φ i) (H (φ j))

theorem form_eq {n k : ℕ} {φ χ : ℕ → St} {S : NMat} (h : ∀ i < k, ∀ j < k, S i j = inner n (φ i) (χ j)) (C : NMat) (m i j : ℕ) (hi : i < m) (hj : j < m) :
    inner n (spanState k φ (C · i)) (spanState k χ (C · j)) = ((NMat.mat k m C).conjTranspose * (NMat.mat k k S * NMat.mat k m C)) ⟨i, hi⟩ ⟨j, hj⟩ := by
  rw [inner_span, Matrix.mul_apply, Finset.sum_range]
  refine Finset.sum_congr rfl fun a _ => ?_
  rw [Matrix.mul_apply, Finset.sum_range, Finset.mul_sum]
  refine Finset.sum_congr rfl fun b _ => ?_
  simp only [NMat.mat, Matrix.conjTranspose_apply]
  rw [h a a.2 b b.2, mul_assoc]; rfl

/-- C83: the energies of `canonical_geig_solve` with the matrices of the states `φ` are Ritz energies: it always succeeds, keeps the directions with overlap eigenvalue above
1e-15, and the returned columns are the coefficients of orthonormal states in which `H` is diagonal. -/
theorem C83_ritz {eig : EigOracle} (hE : DescEig eig) {n k : ℕ} {H : Op} (hH : ∀ φ ψ, inner n φ (H ψ) = inner n (H φ) ψ) {φ : ℕ → St} {S Hm : NMat}
    (hG : GramOf n k H φ S Hm) : ∃ e C, canonicalGeigSolve eig k S Hm false = .ok (e, C) ∧
      e.length = ((eig k S).1.filter fun z => open Classical in decide (1e-15 < z.re)).length ∧ RitzPairs n k H φ e C := by
  have hSh : ∀ i < k, ∀ j < k, (starRingEnd ℂ) (S i j) = S j i := fun i hi j hj => by rw [hG.overlap i hi j hj, hG.overlap j hj i hi, inner_conj]
  obtain ⟨h1, h2, h3⟩ := hE k S hSh
  obtain ⟨s1, s2, es, p1, p2⟩ := desc_split h3 1e-15
  obtain ⟨s, U, hsU⟩ : ∃ s U, eig k S = (s, U) := ⟨_, _, rfl⟩
  have him := eig_real hSh h1 h2
  rw [hsU] at h1 h2 him es
  simp only at h2 him es
  subst es
  have hun := geig_unfold (H := Hm) hsU him p1 p2
  set X := scaled U (s1.map Complex.re) with hX
  have g1 := gram_scaled h1 h2 (fun z hz => him z (List.mem_append_left _ hz)) p1
  rw [← hX] at g1
  set m := s1.length with hm
  have hHm : NMat.mat m m ((X.dag.dot k Hm).dot k X) = (NMat.mat k m X).conjTranspose * (NMat.mat k k Hm * NMat.mat k m X) := by
    rw [mat_dot, mat_dot, mat_dag, Matrix.mul_assoc]
  have hHh : (NMat.mat k k Hm).conjTranspose = NMat.mat k k Hm := herm_mat fun i hi j hj => by
    rw [hG.ham i hi j hj, hG.ham j hj i hi, inner_conj, hH]
  obtain ⟨r1, r2, -⟩ := hE m ((X.dag.dot k Hm).dot k X) (fun i hi j hj => by
    have e : (NMat.mat m m ((X.dag.dot k Hm).dot k X)).conjTranspose = NMat.mat m m ((X.dag.dot k Hm).dot k X) := by
      rw [hHm, Matrix.conjTranspose_mul, Matrix.conjTranspose_mul, Matrix.conjTranspose_conjTranspose, hHh, Matrix.mul_assoc]
    have := congrFun (congrFun e ⟨j, hj⟩) ⟨i, hi⟩
    rw [Matrix.conjTranspose_apply] at this
    exact this)
  have g2 := eig_diag r1 r2
  rw [hHm] at g2
  set r := eig m ((X.dag.dot k Hm).dot k X) with hr
  refine ⟨r.1, X.dot m r.2, hun, ?_, ?_⟩
  · rw [r1.1, hsU]
    simp only
    rw [List.filter_append, List.filter_eq_self.2 (by intro z hz; simpa using p1 z hz), List.filter_eq_nil_iff.2 (by intro z hz; simpa using p2 z hz), List.append_nil]
  · rw [RitzPairs, r1.1]
    intro i hi j hj
    have eC : NMat.mat k m (X.dot m r.2) = NMat.mat k m X * NMat.mat m m r.2 := mat_dot k m m X r.2
    constructor
    · rw [form_eq hG.overlap (X.dot m r.2) m i j hi hj, eC, Matrix.conjTranspose_mul, ← Matrix.mul_assoc (NMat.mat k k S), Matrix.mul_assoc, ← Matrix.mul_assoc (NMat.mat k m X).conjTranspose, g1,
        Matrix.one_mul, mat_orthonormal r2, Matrix.one_apply]
      simp [Fin.ext_iff]
    · rw [op_span, form_eq hG.ham (X.dot m r.2) m i j hi hj, eC, Matrix.conjTranspose_mul, ← Matrix.mul_assoc (NMat.mat k k Hm), Matrix.mul_assoc, ← Matrix.mul_assoc (NMat.mat k m X).conjTranspose, g2,
        Matrix.diagonal_apply]
      simp only [Fin.mk.injEq]
      split_ifs with h
      · rw [h]
      · rfl

/-- C83: every energy of `canonical_geig_solve`, sorted or not, is real and is the energy of a normalised state of the span: none lies below a lower bound of the energies of normalised states. -/
theorem C83_variational {eig : EigOracle} (hE : DescEig eig) {n k : ℕ} {H : Op} (hH : ∀ φ ψ, inner n φ (H ψ) = inner n (H φ) ψ) {φ : ℕ → St} {S Hm : NMat}
    (hG : GramOf n k H φ S Hm) (sort : Bool) : ∃ e C, canonicalGeigSolve eig k S Hm sort = .ok (e, C) ∧ (sort = true → e.Pairwise fun a b => a.re ≤ b.re) ∧
      e.length = ((eig k S).1.filter fun z => open Classical in decide (1e-15 < z.re)).length ∧
      ∀ z ∈ e, ∃ c, inner n (spanState k φ c) (spanState k φ c) = 1 ∧ inner n (spanState k φ c) (H (spanState k φ c)) = z ∧
        z.im = 0 ∧ ∀ E0 : ℝ, (∀ χ, inner n χ χ = 1 → E0 ≤ energy n H χ) → E0 ≤ z.re := by
  obtain ⟨e, C, h1, h2, h3⟩ := C83_ritz hE hH hG
  have key : ∀ z ∈ e, ∃ c, inner n (spanState k φ c) (spanState k φ c) = 1 ∧ inner n (spanState k φ c) (H (spanState k φ c)) = z ∧
        z.im = 0 ∧ ∀ E0 : ℝ, (∀ χ, inner n χ χ = 1 → E0 ≤ energy n H χ) → E0 ≤ z.re := by
    intro z hz
    obtain ⟨j, hj, rfl⟩ := List.getElem_of_mem hz
    obtain ⟨a, b⟩ := h3 j hj j hj
    rw [if_pos rfl] at a b
    rw [List.getD_eq_getElem _ _ hj] at b
    refine ⟨(C · j), a, b, ?_, fun E0 h0 => ?_⟩
    · rw [← b]
      apply Complex.conj_eq_iff_im.1
      rw [inner_conj, hH]
    · rw [← b]; exact h0 _ a
  cases sort with
  | false => exact ⟨e, C, h1, by simp, h2, key⟩
  | true =>
    obtain ⟨e', C', s1, s2, s3⟩ := C76_sorted_values eig k S Hm e C h1
    exact ⟨e', C', s1, fun _ => s3, by rw [s2.length_eq, h2], fun z hz => key z (s2.mem_iff.1 hz)⟩

/-- C83: if no direction is dropped, the lowest of the energies is the minimum over the whole span. -/
theorem C83_optimal {eig : EigOracle} (hE : DescEig eig) {n k : ℕ} {H : Op} (hH : ∀ φ ψ, inner n φ (H ψ) = inner n (H φ) ψ) {φ : ℕ → St} {S Hm : NMat}
    (hG : GramOf n k H φ S Hm) (hfull : ∀ z ∈ (eig k S).1, 1e-15 < z.re) (hk : 1 ≤ k) : ∃ e C z, canonicalGeigSolve eig k S Hm true = .ok (e, C) ∧ e[0]? = some z ∧
      (∃ c, inner n (spanState k φ c) (spanState k φ c) = 1 ∧ inner n (spanState k φ c) (H (spanState k φ c)) = z) ∧
      ∀ c, inner n (spanState k φ c) (spanState k φ c) = 1 → z.re ≤ energy n H (spanState k φ c) := by
  have hSh : ∀ i < k, ∀ j < k, (starRingEnd ℂ) (S i j) = S j i := fun i hi j hj => by rw [hG.overlap i hi j hj, hG.overlap j hj i hi, inner_conj]
  obtain ⟨e, C, h1, h2, h3⟩ := C83_ritz hE hH hG
  rw [List.filter_eq_self.2 (by intro z hz; simpa using hfull z hz), (hE k S hSh).1.1] at h2
  obtain ⟨e', C', s1, s2, s3⟩ := C76_sorted_values eig k S Hm e C h1
  have hne : e' ≠ [] := by intro h0; rw [h0] at s2; have := s2.length_eq; simp at this; omega
  obtain ⟨z, l, rfl⟩ := List.exists_cons_of_ne_nil hne
  have hz : z ∈ e := s2.mem_iff.1 (by simp)
  have hle : ∀ w ∈ e, z.re ≤ w.re := fun w hw => by
    rcases List.mem_cons.1 (s2.mem_iff.2 hw) with rfl | h
    · exact le_rfl
    · exact (List.pairwise_cons.1 s3).1 w h
  refine ⟨_, C', z, s1, rfl, ?_, ?_⟩
  · obtain ⟨j, hj, rfl⟩ := List.getElem_of_mem hz
    obtain ⟨a, b⟩ := h3 j hj j hj
    rw [if_pos rfl] at a b
    rw [List.getD_eq_getElem _ _ hj] at b
    exact ⟨_, a, b⟩
  · intro c hc
    -- in the basis of the Ritz states
    have gS : (NMat.mat k k C).conjTranspose * (NMat.mat k k S * NMat.mat k k C) = 1 := by
      funext i j
      have := (h3 i (by rw [h2]; exact i.2) j (by rw [h2]; exact j.2)).1
      rw [form_eq hG.overlap C k i j i.2 j.2] at this
      rw [Matrix.one_apply]
      simpa [Fin.ext_iff] using this
    have gH : (NMat.mat k k C).conjTranspose * (NMat.mat k k Hm * NMat.mat k k C) = Matrix.diagonal (fun j : Fin k => e.getD j 0) := by
      funext i j
      have := (h3 i (by rw [h2]; exact i.2) j (by rw [h2]; exact j.2)).2
      rw [op_span, form_eq hG.ham C k i j i.2 j.2] at this
      rw [Matrix.diagonal_apply]
      by_cases hij : i = j
      · subst hij; simpa using this
      · rw [if_neg (by simpa [Fin.ext_iff] using hij)] at this
        rw [if_neg hij]; exact this
    set M := NMat.mat k k C with hM
    set B : Matrix (Fin k) (Fin k) ℂ := M.conjTranspose * NMat.mat k k S with hB
    have hBM : B * M = 1 := by rw [hB, Matrix.mul_assoc]; exact gS
    have hMB : M * B = 1 := mul_eq_one_comm.1 hBM
    let v : Fin k → ℂ := fun i => c i
    let d : Fin k → ℂ := B.mulVec v
    have hv : v = M.mulVec d := by
      show v = M.mulVec (B.mulVec v)
      rw [Matrix.mulVec_mulVec, hMB, Matrix.one_mulVec]
    -- the two forms in terms of `d`
    have form : ∀ (χ : ℕ → St) (T : NMat) (D : Matrix (Fin k) (Fin k) ℂ), (∀ i < k, ∀ j < k, T i j = inner n (φ i) (χ j)) → M.conjTranspose * (NMat.mat k k T * M) = D →
        inner n (spanState k φ c) (spanState k χ c) = star d ⬝ᵥ D.mulVec d := by
      intro χ T D hT hD
      have : inner n (spanState k φ c) (spanState k χ c) = star v ⬝ᵥ (NMat.mat k k T).mulVec v := by
        rw [inner_span, Finset.sum_range, dotProduct]
        refine Finset.sum_congr rfl fun a _ => ?_
        rw [Matrix.mulVec, dotProduct, Finset.sum_range, Finset.mul_sum]
        refine Finset.sum_congr rfl fun b _ => ?_
        rw [← hT a a.2 b b.2, mul_assoc]; rfl
      rw [this, hv, ← hD, Matrix.star_mulVec, ← Matrix.dotProduct_mulVec, Matrix.mulVec_mulVec, Matrix.mulVec_mulVec, Matrix.mul_assoc]
    have f1 := form φ S 1 hG.overlap gS
    have f2 := form (fun i => H (φ i)) Hm _ hG.ham gH
    rw [hc, Matrix.one_mulVec] at f1
    have f1' : ∑ i, ‖d i‖ ^ 2 = 1 := by
      have : ((∑ i, ‖d i‖ ^ 2 : ℝ) : ℂ) = 1 := by
        rw [f1, dotProduct]; push_cast
        refine Finset.sum_congr rfl fun i _ => ?_
        rw [Pi.star_apply, Complex.star_def, mul_comm, Complex.mul_conj, Complex.normSq_eq_norm_sq]; push_cast; rfl
      exact_mod_cast this
    have f2' : energy n H (spanState k φ c) = ∑ i : Fin k, ‖d i‖ ^ 2 * (e.getD i 0).re := by
      unfold energy
      rw [op_span, f2, dotProduct, Complex.re_sum]
      refine Finset.sum_congr rfl fun i _ => ?_
      rw [Matrix.mulVec_diagonal, Pi.star_apply, Complex.star_def, show (starRingEnd ℂ) (d i) * (e.getD i 0 * d i) = (d i * (starRingEnd ℂ) (d i)) * e.getD i 0 by ring,
        Complex.mul_conj, Complex.normSq_eq_norm_sq, Complex.re_ofReal_mul]
    rw [f2']
    calc z.re = ∑ i : Fin k, ‖d i‖ ^ 2 * z.re := by rw [← Finset.sum_mul, f1', one_mul]
      _ ≤ _ := by
        refine Finset.sum_le_sum fun i _ => mul_le_mul_of_nonneg_left ?_ (by positivity)
        have hi : (i : ℕ) < e.length := by rw [h2]; exact i.2
        rw [List.getD_eq_getElem _ _ hi]
        exact hle _ (List.getElem_mem hi)

/-- the contract is satisfiable: by the spectral theorem -/
theorem exists_descEig : ∃ eig, DescEig eig := by
  classical
  have key : ∀ (n : ℕ) (A : NMat), ∃ r : List ℂ × NMat, (∀ i < n, ∀ j < n, (starRingEnd ℂ) (A i j) = A j i) →
      EigOf n A r ∧ Orthonormal' n n r.2 ∧ r.1.Pairwise (fun a b => b.re ≤ a.re) := by
    intro n A
    by_cases hA : ∀ i < n, ∀ j < n, (starRingEnd ℂ) (A i j) = A j i
    · have hM : (NMat.mat n n A).IsHermitian := herm_mat hA
      let σ := Tuple.sort (fun i => -hM.eigenvalues i)
      have hmono : Monotone ((fun i => -hM.eigenvalues i) ∘ σ) := Tuple.monotone_sort _
      let U : NMat := fun i j => if h : i < n ∧ j < n then (hM.eigenvectorUnitary : Matrix (Fin n) (Fin n) ℂ) ⟨i, h.1⟩ (σ ⟨j, h.2⟩) else 0
      refine ⟨(List.ofFn fun j => ((hM.eigenvalues (σ j) : ℝ) : ℂ), U), fun _ => ⟨⟨by simp, ?_⟩, ?_, ?_⟩⟩
      · intro i hi j hj
        have := congrFun (hM.mulVec_eigenvectorBasis (σ ⟨j, hj⟩)) ⟨i, hi⟩
        rw [List.getD_eq_getElem _ _ (by simpa using hj), List.getElem_ofFn]
        simp only [NMat.dot]
        rw [Finset.sum_range]
        simp only [U, hi, hj, and_self, dite_true, Fin.is_lt]
        simpa [Matrix.mulVec, dotProduct, NMat.mat] using this
      · intro i hi j hj
        have h1 : star (hM.eigenvectorUnitary : Matrix (Fin n) (Fin n) ℂ) * (hM.eigenvectorUnitary : Matrix (Fin n) (Fin n) ℂ) = 1 := Unitary.coe_star_mul_self _
        have := congrFun (congrFun h1 (σ ⟨i, hi⟩)) (σ ⟨j, hj⟩)
        rw [Matrix.mul_apply, Matrix.one_apply] at this
        simp only [NMat.dot, NMat.dag]
        rw [Finset.sum_range]
        simp only [U, hi, hj, and_self, dite_true, Fin.is_lt]
        simpa [Fin.ext_iff, Matrix.star_apply] using this
      · rw [List.pairwise_ofFn]
        intro i j hij
        have := hmono hij.le
        simp only [Function.comp] at this
        simp only [Complex.ofReal_re]
        linarith
    · exact ⟨([], fun _ _ => 0), fun h => absurd h hA⟩
  choose f hf using key
  exact ⟨f, fun n A h => hf n A h⟩

/-- C83 (finding): the order is needed.  `scipy.linalg.eig` does not promise any order; if it lists an eigenvalue that is dropped before one that is kept, the columns and
the eigenvalues no longer belong together, and the energy can lie below the exact ground state: two copies of one state, `H` the identity (all energies are 1), give 0. -/
theorem C83_order_refuted : ∃ eig : EigOracle, (∀ (n : ℕ) (A : NMat), (∀ i < n, ∀ j < n, (starRingEnd ℂ) (A i j) = A j i) → EigOf n A (eig n A) ∧ Orthonormal' n n (eig n A).2) ∧
    ∃ S Hm C, GramOf 1 2 1 (fun _ => Pi.single 0 1) S Hm ∧ canonicalGeigSolve eig 2 S Hm false = .ok ([0], C) ∧ ∀ χ, inner 1 χ χ = 1 → energy 1 1 χ = 1 := by
  classical
  obtain ⟨f, hf⟩ := exists_descEig
  let a : ℂ := ((Real.sqrt 2 / 2 : ℝ) : ℂ)
  have ha : a * a = 1 / 2 := by
    show ((Real.sqrt 2 / 2 : ℝ) : ℂ) * ((Real.sqrt 2 / 2 : ℝ) : ℂ) = 1 / 2
    rw [← Complex.ofReal_mul]
    have : Real.sqrt 2 / 2 * (Real.sqrt 2 / 2) = 1 / 2 := by
      have := Real.mul_self_sqrt (show (0 : ℝ) ≤ 2 by norm_num); nlinarith
    rw [this]; norm_num
  have hca : (starRingEnd ℂ) a = a := Complex.conj_ofReal _
  let U : NMat := fun i j => if i = 1 ∧ j = 0 then -a else a
  let ones : NMat := fun _ _ => 1
  let eig : EigOracle := fun n A => if n = 2 ∧ (∀ i < 2, ∀ j < 2, A i j = 1) then ([0, 2], U) else f n A
  refine ⟨eig, ?_, ones, ones, ?_⟩
  · intro n A hA
    by_cases h : n = 2 ∧ (∀ i < 2, ∀ j < 2, A i j = 1)
    · obtain ⟨rfl, h⟩ := h
      have e : eig 2 A = ([0, 2], U) := if_pos ⟨rfl, h⟩
      rw [e]
      refine ⟨⟨rfl, ?_⟩, ?_⟩
      · intro i hi j hj
        interval_cases i <;> interval_cases j <;> simp [NMat.dot, Finset.sum_range_succ, U, h] <;> ring
      · intro i hi j hj
        interval_cases i <;> interval_cases j <;> simp [NMat.dot, NMat.dag, Finset.sum_range_succ, U, hca, ha] <;> norm_num
    · have e : eig n A = f n A := if_neg h
      rw [e]
      exact ⟨(hf n A hA).1, (hf n A hA).2.1⟩
  · have e : eig 2 ones = ([0, 2], U) := if_pos ⟨rfl, fun _ _ _ _ => rfl⟩
    set X : NMat := fun i j => U i j / ((Real.sqrt ([(2 : ℝ)].getD j 0) : ℝ) : ℂ) with hX
    have hH : ((X.dag.dot 2 ones).dot 2 X) 0 0 = 0 := by
      simp [NMat.dot, NMat.dag, Finset.sum_range_succ, hX, U, ones, hca]
      ring
    have e1 : eig 1 ((X.dag.dot 2 ones).dot 2 X) = f 1 ((X.dag.dot 2 ones).dot 2 X) := if_neg (by simp)
    obtain ⟨r1, r2, -⟩ := hf 1 ((X.dag.dot 2 ones).dot 2 X) (by intro i hi j hj; interval_cases i; interval_cases j; rw [hH]; simp)
    have hr : (f 1 ((X.dag.dot 2 ones).dot 2 X)).1 = [0] := by
      obtain ⟨z, hz⟩ := List.length_eq_one_iff.1 r1.1
      have h1 := r1.2 0 (by omega) 0 (by omega)
      have h2 := r2 0 (by omega) 0 (by omega)
      simp only [NMat.dot, Finset.sum_range_one, NMat.dag, if_true] at h2
      rw [show NMat.dot 1 _ _ 0 0 = ((X.dag.dot 2 ones).dot 2 X) 0 0 * (f 1 ((X.dag.dot 2 ones).dot 2 X)).2 0 0 by simp [NMat.dot], hH, hz] at h1
      have hne : (f 1 ((X.dag.dot 2 ones).dot 2 X)).2 0 0 ≠ 0 := by intro h0; rw [h0] at h2; simp at h2
      have : z = 0 := by
        rcases mul_eq_zero.1 (show z * _ = 0 by simpa using h1.symm) with h | h
        · exact h
        · exact absurd h hne
      rw [hz, this]
    have hflt : ([0, 2] : List ℂ).filter (fun z => decide (z.re > 1e-15)) = [2] := by
      have h0 : ¬((0 : ℂ).re > 1e-15) := by norm_num
      have h2 : (2 : ℂ).re > 1e-15 := by norm_num
      rw [List.filter_cons, List.filter_cons, List.filter_nil]
      simp only [h0, h2, decide_true, decide_false, if_true, Bool.false_eq_true, if_false]
    refine ⟨X.dot 1 (f 1 ((X.dag.dot 2 ones).dot 2 X)).2, ⟨?_, ?_⟩, ?_, ?_⟩
    · intro i _ j _; simp [ones, inner, Finset.sum_range_succ]
    · intro i _ j _; simp [ones, inner, Finset.sum_range_succ]
    · unfold canonicalGeigSolve
      rw [e]
      simp only
      rw [geig_filter (by intro z hz; simp only [List.mem_cons, List.not_mem_nil, or_false] at hz; rcases hz with rfl | rfl <;> simp)]
      simp only [Bool.false_eq_true, if_false]
      rw [hflt]
      simp only [List.map_cons, List.map_nil, List.length_singleton, Complex.re_ofNat]
      rw [← hX, e1, hr]
    · intro χ hχ
      unfold energy
      rw [Module.End.one_apply, hχ]; rfl

end QF
