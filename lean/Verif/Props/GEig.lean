import Verif.Model.GEig
import Mathlib.LinearAlgebra.Matrix.NonsingularInverse
import Mathlib.Analysis.Complex.Basic
import Mathlib.Tactic.IntervalCases
import Mathlib.Algebra.BigOperators.Field
import Mathlib.Data.List.GetD
import Mathlib.Tactic.FieldSimp

/-!
C76: the generalized eigenvalue problem of the quantum subspace methods.
-/
namespace QF

/-- `(e, C)` solves the ordinary eigenvalue problem of the `n` by `n` matrix `A` with `n` eigenpairs -/
def EigOf (n : ℕ) (A : NMat) (r : List ℂ × NMat) : Prop :=
  r.1.length = n ∧ ∀ i < n, ∀ j < n, A.dot n r.2 i j = r.1.getD j 0 * r.2 i j

/-- the first `m` columns of `U` (of length `n`) are orthonormal -/
def Orthonormal' (n m : ℕ) (U : NMat) : Prop := ∀ i < m, ∀ j < m, (U.dag.dot n U) i j = if i = j then 1 else 0

/-- `(e, C)` solves the generalized eigenvalue problem `H C = S C e` -/
def GEigOf (n : ℕ) (S H : NMat) (r : List ℂ × NMat) : Prop :=
  ∀ i < n, ∀ j < r.1.length, H.dot n r.2 i j = r.1.getD j 0 * S.dot n r.2 i j

/-- the matrix of the first `n` rows and `m` columns -/
def NMat.mat (n m : ℕ) (A : NMat) : Matrix (Fin n) (Fin m) ℂ := fun i j => A i j

theorem mat_dot (n k m : ℕ) (A B : NMat) : NMat.mat n m (A.dot k B) = NMat.mat n k A * NMat.mat k m B := by
  funext i j
  rw [Matrix.mul_apply]
  simp only [NMat.mat, NMat.dot]
  rw [Finset.sum_range]

theorem mat_dag (n m : ℕ) (A : NMat) : NMat.mat n m A.dag = (NMat.mat m n A).conjTranspose := by
  funext i j; simp [NMat.mat, NMat.dag, Matrix.conjTranspose_apply]

theorem mat_ext {n m : ℕ} {A B : NMat} : NMat.mat n m A = NMat.mat n m B ↔ ∀ i < n, ∀ j < m, A i j = B i j := by
  constructor
  · intro h i hi j hj
    exact congrFun (congrFun h ⟨i, hi⟩) ⟨j, hj⟩
  · intro h; funext i j; exact h i i.2 j j.2

theorem mat_orthonormal {n m : ℕ} {U : NMat} (h : Orthonormal' n m U) : (NMat.mat n m U).conjTranspose * NMat.mat n m U = 1 := by
  rw [← mat_dag, ← mat_dot]
  funext i j
  rw [Matrix.one_apply]
  simp only [NMat.mat, h i i.2 j j.2, Fin.ext_iff]

theorem mat_eig {n : ℕ} {A : NMat} {r : List ℂ × NMat} (h : EigOf n A r) :
    NMat.mat n n A * NMat.mat n n r.2 = NMat.mat n n r.2 * Matrix.diagonal (fun j : Fin n => r.1.getD j 0) := by
  rw [← mat_dot]
  funext i j
  rw [Matrix.mul_diagonal]
  simp only [NMat.mat]
  rw [h.2 i i.2 j j.2, mul_comm]

/-- the columns `U_j / √s_j` -/
noncomputable def scaled (U : NMat) (sp : List ℝ) : NMat := fun i j => U i j / ((Real.sqrt (sp.getD j 0) : ℝ) : ℂ)

theorem mat_scaled (n : ℕ) (U : NMat) (sp : List ℝ) (m : ℕ) :
    NMat.mat n m (scaled U sp) = NMat.mat n m U * Matrix.diagonal (fun j : Fin m => (((Real.sqrt (sp.getD j 0))⁻¹ : ℝ) : ℂ)) := by
  funext i j
  rw [Matrix.mul_diagonal]
  simp [NMat.mat, scaled, div_eq_mul_inv]

theorem geig_filter {s : List ℂ} (h : ∀ z ∈ s, z.im = 0) : s.any (fun z => open Classical in decide (z.im > 1e-12)) = false := by
  rw [List.any_eq_false]
  intro z hz
  simp only [h z hz, decide_eq_true_eq]
  norm_num

theorem geig_unfold {eig : EigOracle} {n : ℕ} {S H : NMat} {s1 s2 : List ℂ} {U : NMat} (hS : eig n S = (s1 ++ s2, U)) (him : ∀ z ∈ s1 ++ s2, z.im = 0)
    (h1 : ∀ z ∈ s1, 1e-15 < z.re) (h2 : ∀ z ∈ s2, z.re ≤ 1e-15) :
    canonicalGeigSolve eig n S H false = .ok ((eig s1.length (((scaled U (s1.map Complex.re)).dag.dot n H).dot n (scaled U (s1.map Complex.re)))).1,
      (scaled U (s1.map Complex.re)).dot s1.length (eig s1.length (((scaled U (s1.map Complex.re)).dag.dot n H).dot n (scaled U (s1.map Complex.re)))).2) := by
  classical
  have hf : (s1 ++ s2).filter (fun z => open Classical in decide (z.re > 1e-15)) = s1 := by
    rw [List.filter_append, List.filter_eq_self.2 (by intro z hz; simpa using h1 z hz),
      List.filter_eq_nil_iff.2 (by intro z hz; simpa using h2 z hz), List.append_nil]
  unfold canonicalGeigSolve
  rw [hS]
  simp only
  rw [geig_filter him, hf]
  simp only [Bool.false_eq_true, if_false, List.length_map]
  rfl

theorem gram_scaled {n : ℕ} {S U : NMat} {s1 s2 : List ℂ} (hS : EigOf n S (s1 ++ s2, U)) (hU : Orthonormal' n n U) (him : ∀ z ∈ s1, z.im = 0)
    (h1 : ∀ z ∈ s1, 1e-15 < z.re) :
    (NMat.mat n s1.length (scaled U (s1.map Complex.re))).conjTranspose * (NMat.mat n n S * NMat.mat n s1.length (scaled U (s1.map Complex.re))) = 1 := by
  have hl : s1.length ≤ n := by have := hS.1; simp at this; omega
  funext i j
  rw [Matrix.mul_apply]
  have hj : (j : ℕ) < n := lt_of_lt_of_le j.2 hl
  have hi : (i : ℕ) < n := lt_of_lt_of_le i.2 hl
  have hSX : ∀ k : Fin n, (NMat.mat n n S * NMat.mat n s1.length (scaled U (s1.map Complex.re))) k j = s1[j] * (U k j / ((Real.sqrt (s1[j]).re : ℝ) : ℂ)) := by
    intro k
    have e1 : (NMat.mat n n S * NMat.mat n s1.length (scaled U (s1.map Complex.re))) k j = S.dot n U k j / ((Real.sqrt (s1[j]).re : ℝ) : ℂ) := by
      rw [← mat_dot]
      simp only [NMat.mat, NMat.dot, scaled]
      rw [Finset.sum_div]
      refine Finset.sum_congr rfl fun l _ => ?_
      rw [List.getD_eq_getElem _ _ (by simp)]
      simp [mul_div_assoc]
    rw [e1, hS.2 k k.2 j hj]
    simp only
    rw [List.getD_eq_getElem _ _ (by simp; omega), List.getElem_append_left (by exact j.2), mul_div_assoc]
    rfl
  have hX : ∀ k : Fin n, (NMat.mat n s1.length (scaled U (s1.map Complex.re))).conjTranspose i k = (starRingEnd ℂ) (U k i) / ((Real.sqrt (s1[i]).re : ℝ) : ℂ) := by
    intro k
    rw [Matrix.conjTranspose_apply]
    simp only [NMat.mat, scaled]
    rw [List.getD_eq_getElem _ _ (by simp)]
    simp
  rw [Finset.sum_congr rfl (fun k _ => by rw [hX k, hSX k])]
  have hsum : ∑ k : Fin n, (starRingEnd ℂ) (U k i) * U k j = if (i : ℕ) = j then 1 else 0 := by
    rw [← hU i hi j hj]
    simp only [NMat.dot, NMat.dag]
    rw [Finset.sum_range]
  have hre : ((s1[j]).re : ℂ) = s1[j] := by
    apply Complex.ext
    · simp
    · simp [him _ (List.getElem_mem _)]
  have hpos : 0 < (s1[j]).re := lt_trans (by norm_num) (h1 _ (List.getElem_mem _))
  calc ∑ k : Fin n, (starRingEnd ℂ) (U k i) / ((Real.sqrt (s1[i]).re : ℝ) : ℂ) * (s1[j] * (U k j / ((Real.sqrt (s1[j]).re : ℝ) : ℂ)))
      = (∑ k : Fin n, (starRingEnd ℂ) (U k i) * U k j) * (s1[j] / (((Real.sqrt (s1[i]).re : ℝ) : ℂ) * ((Real.sqrt (s1[j]).re : ℝ) : ℂ))) := by
        rw [Finset.sum_mul]
        refine Finset.sum_congr rfl fun k _ => ?_
        field_simp
    _ = (1 : Matrix (Fin s1.length) (Fin s1.length) ℂ) i j := by
        rw [hsum, Matrix.one_apply]
        by_cases hij : i = j
        · subst hij
          rw [if_pos rfl, if_pos rfl, one_mul, ← Complex.ofReal_mul, Real.mul_self_sqrt hpos.le, hre, div_self]
          rw [← hre]
          exact_mod_cast hpos.ne'
        · rw [if_neg (by simpa [Fin.ext_iff] using hij), if_neg hij, zero_mul]

/-- C76: if `eig` diagonalizes the overlap matrix with orthonormal eigenvectors and positive eigenvalues (above 1e-15, so that no
direction is dropped), and `eig` solves the reduced problem, the returned pairs solve `H C = S C e`. -/
theorem C76_solves (eig : EigOracle) (n : ℕ) (S H : NMat) (hS : EigOf n S (eig n S)) (hU : Orthonormal' n n (eig n S).2)
    (him : ∀ z ∈ (eig n S).1, z.im = 0 ∧ 1e-15 < z.re) (hE : ∀ A, EigOf n A (eig n A)) :
    ∃ e C, canonicalGeigSolve eig n S H false = .ok (e, C) ∧ e.length = n ∧ GEigOf n S H (e, C) := by
  obtain ⟨s, U, hsU⟩ : ∃ s U, eig n S = (s, U) := ⟨_, _, rfl⟩
  rw [hsU] at hS hU him
  have hs : s.length = n := hS.1
  have hun := geig_unfold (H := H) (s1 := s) (s2 := []) (by rw [List.append_nil]; exact hsU) (by rw [List.append_nil]; exact fun z hz => (him z hz).1)
    (fun z hz => (him z hz).2) (by simp)
  rw [hs] at hun
  set X := scaled U (s.map Complex.re) with hX
  have hr := hE ((X.dag.dot n H).dot n X)
  set r := eig n ((X.dag.dot n H).dot n X) with hrdef
  refine ⟨r.1, X.dot n r.2, hun, hr.1, ?_⟩
  have hG : (NMat.mat n n X).conjTranspose * (NMat.mat n n S * NMat.mat n n X) = 1 := by
    have := gram_scaled (n := n) (S := S) (U := U) (s1 := s) (s2 := []) (by rw [List.append_nil]; exact hS) hU (fun z hz => (him z hz).1) (fun z hz => (him z hz).2)
    rw [← hX] at this
    clear_value X
    subst hs
    exact this
  have hSXX : NMat.mat n n S * NMat.mat n n X * (NMat.mat n n X).conjTranspose = 1 := mul_eq_one_comm.1 hG
  have hR := mat_eig hr
  rw [mat_dot, mat_dot, mat_dag] at hR
  have key : NMat.mat n n H * NMat.mat n n (X.dot n r.2) = NMat.mat n n S * NMat.mat n n (X.dot n r.2) * Matrix.diagonal (fun j : Fin n => r.1.getD j 0) := by
    rw [mat_dot]
    calc NMat.mat n n H * (NMat.mat n n X * NMat.mat n n r.2)
        = (NMat.mat n n S * NMat.mat n n X * (NMat.mat n n X).conjTranspose) * (NMat.mat n n H * (NMat.mat n n X * NMat.mat n n r.2)) := by rw [hSXX, one_mul]
      _ = NMat.mat n n S * NMat.mat n n X * ((NMat.mat n n X).conjTranspose * NMat.mat n n H * NMat.mat n n X * NMat.mat n n r.2) := by simp only [Matrix.mul_assoc]
      _ = _ := by rw [hR]; simp only [Matrix.mul_assoc]
  intro i hi j hj
  have hj' : j < n := by rw [hr.1] at hj; exact hj
  have := congrFun (congrFun key ⟨i, hi⟩) ⟨j, hj'⟩
  rw [← mat_dot, ← mat_dot, Matrix.mul_diagonal] at this
  simp only [NMat.mat] at this
  rw [this, mul_comm]

/-- C76: if the eigenvalues that are dropped come after the ones that are kept, the returned pairs solve the problem projected on the
kept directions (the columns `X = U_j / √s_j`, which are orthonormal in the metric `S`). -/
theorem C76_truncated (eig : EigOracle) (n : ℕ) (S H : NMat) (s1 s2 : List ℂ) (U : NMat) (hsU : eig n S = (s1 ++ s2, U)) (hS : EigOf n S (s1 ++ s2, U))
    (hU : Orthonormal' n n U) (him : ∀ z ∈ s1 ++ s2, z.im = 0) (h1 : ∀ z ∈ s1, 1e-15 < z.re) (h2 : ∀ z ∈ s2, z.re ≤ 1e-15)
    (hE : ∀ A, EigOf s1.length A (eig s1.length A)) :
    ∃ (e : List ℂ) (C X : NMat), canonicalGeigSolve eig n S H false = .ok (e, C) ∧ e.length = s1.length ∧
      (∀ i < n, ∀ j < s1.length, X i j = U i j / ((Real.sqrt ((s1.map Complex.re).getD j 0) : ℝ) : ℂ)) ∧
      (∀ i < s1.length, ∀ j < s1.length, (X.dag.dot n (S.dot n X)) i j = if i = j then 1 else 0) ∧
      (∀ i < s1.length, ∀ j < s1.length, (X.dag.dot n (H.dot n C)) i j = e.getD j 0 * (X.dag.dot n (S.dot n C)) i j) := by
  have hun := geig_unfold (H := H) hsU him h1 h2
  set X := scaled U (s1.map Complex.re) with hX
  have hr := hE ((X.dag.dot n H).dot n X)
  set r := eig s1.length ((X.dag.dot n H).dot n X) with hrdef
  have hG := gram_scaled hS hU (fun z hz => him z (List.mem_append_left _ hz)) h1
  rw [← hX] at hG
  refine ⟨r.1, X.dot s1.length r.2, X, hun, hr.1, fun _ _ _ _ => rfl, ?_, ?_⟩
  · intro i hi j hj
    rw [← mat_dot, ← mat_dag, ← mat_dot] at hG
    have := congrFun (congrFun hG ⟨i, hi⟩) ⟨j, hj⟩
    rw [Matrix.one_apply] at this
    simpa [NMat.mat, Fin.ext_iff] using this
  · have hR := mat_eig hr
    rw [mat_dot, mat_dot, mat_dag] at hR
    have key : NMat.mat s1.length s1.length (X.dag.dot n (H.dot n (X.dot s1.length r.2))) =
        NMat.mat s1.length s1.length (X.dag.dot n (S.dot n (X.dot s1.length r.2))) * Matrix.diagonal (fun j : Fin s1.length => r.1.getD j 0) := by
      simp only [mat_dot, mat_dag]
      have e1 : (NMat.mat n s1.length X).conjTranspose * (NMat.mat n n S * (NMat.mat n s1.length X * NMat.mat s1.length s1.length r.2)) = NMat.mat s1.length s1.length r.2 := by
        rw [← Matrix.mul_assoc (NMat.mat n n S), ← Matrix.mul_assoc, hG, Matrix.one_mul]
      rw [e1, ← hR]
      simp only [Matrix.mul_assoc]
    intro i hi j hj
    have := congrFun (congrFun key ⟨i, hi⟩) ⟨j, hj⟩
    rw [Matrix.mul_diagonal] at this
    simp only [NMat.mat] at this
    rw [this, mul_comm]

/-! ### sorting -/

theorem sorted_perm (e : List ℂ) : (sortedLargestIdxs e false).Perm e.zipIdx := by
  unfold sortedLargestIdxs; rw [if_neg (by simp)]; exact List.perm_insertionSort _ _

/-- C76: `sorted_largest_idxs(array, use_real=True, rev=False)` lists every (value, index) pair once, by non-decreasing real part. -/
theorem C76_sorted_idxs (e : List ℂ) : (sortedLargestIdxs e false).Perm e.zipIdx ∧ (sortedLargestIdxs e false).Pairwise (fun a b => a.1.re ≤ b.1.re) ∧
    (sortedLargestIdxs e true).Perm e.zipIdx ∧ (sortedLargestIdxs e true).Pairwise (fun a b => b.1.re ≤ a.1.re) := by
  classical
  refine ⟨sorted_perm e, ?_, ?_, ?_⟩
  · unfold sortedLargestIdxs; rw [if_neg (by simp)]
    have : Std.Total (fun a b : ℂ × ℕ => a.1.re ≤ b.1.re) := ⟨fun a b => le_total _ _⟩
    have : IsTrans (ℂ × ℕ) (fun a b => a.1.re ≤ b.1.re) := ⟨fun a b c h1 h2 => le_trans h1 h2⟩
    exact List.pairwise_insertionSort _ _
  · unfold sortedLargestIdxs; rw [if_pos rfl]; exact List.perm_insertionSort _ _
  · unfold sortedLargestIdxs; rw [if_pos rfl]
    have : Std.Total (fun a b : ℂ × ℕ => b.1.re ≤ a.1.re) := ⟨fun a b => le_total _ _⟩
    have : IsTrans (ℂ × ℕ) (fun a b => b.1.re ≤ a.1.re) := ⟨fun a b c h1 h2 => le_trans h2 h1⟩
    exact List.pairwise_insertionSort _ _

theorem sorted_values (e : List ℂ) : ((sortedLargestIdxs e false).map Prod.snd).map (fun i => e.getD i 0) = (sortedLargestIdxs e false).map Prod.fst := by
  rw [List.map_map]
  refine List.map_congr_left fun p hp => ?_
  have := (sorted_perm e).mem_iff.1 hp
  obtain ⟨v, i⟩ := p
  have := List.mem_zipIdx_iff_getElem?.1 this
  simp only [Function.comp_apply]
  rw [List.getD_eq_getElem?_getD, this]; rfl

/-- C76: with `sort_ret_vals=True` the returned eigenvalues are those of the unsorted call, in non-decreasing order of their real part. -/
theorem C76_sorted_values (eig : EigOracle) (n : ℕ) (S H : NMat) (e : List ℂ) (C : NMat) (h : canonicalGeigSolve eig n S H false = .ok (e, C)) :
    ∃ e' C', canonicalGeigSolve eig n S H true = .ok (e', C') ∧ e'.Perm e ∧ e'.Pairwise (fun a b => a.re ≤ b.re) := by
  unfold canonicalGeigSolve at h ⊢
  simp only at h ⊢
  split at h
  · cases h
  · rename_i hc
    rw [if_neg hc]
    simp only [Bool.false_eq_true, if_false, if_true, Except.ok.injEq, Prod.mk.injEq] at h ⊢
    obtain ⟨he, _⟩ := h
    rw [he]
    refine ⟨_, _, ⟨rfl, rfl⟩, ?_, ?_⟩
    · rw [sorted_values]
      have := (sorted_perm e).map Prod.fst
      rwa [List.zipIdx_map_fst] at this
    · rw [sorted_values, List.pairwise_map]
      exact (C76_sorted_idxs e).2.1

/-- C76: if `eig` of the reduced problem already returns its eigenvalues by non-decreasing real part, the sorted call returns the same
eigenpairs as the unsorted call. -/
theorem C76_sorted_vectors_partial (eig : EigOracle) (n : ℕ) (S H : NMat) (e : List ℂ) (C : NMat)
    (hl : e.length = ((eig n S).1.filter fun z => open Classical in decide (1e-15 < z.re)).length) (h : canonicalGeigSolve eig n S H false = .ok (e, C)) (hs : e.Pairwise (fun a b => a.re ≤ b.re)) :
    ∃ C', canonicalGeigSolve eig n S H true = .ok (e, C') ∧ ∀ i, ∀ j < e.length, C' i j = C i j := by
  classical
  have hsort : sortedLargestIdxs e false = e.zipIdx := by
    unfold sortedLargestIdxs
    rw [if_neg (by simp)]
    refine List.Pairwise.insertionSort_eq ?_
    have := List.pairwise_map.1 (show (e.zipIdx.map Prod.fst).Pairwise (fun a b => a.re ≤ b.re) by rw [List.zipIdx_map_fst]; exact hs)
    convert! this
  have hidx : (sortedLargestIdxs e false).map Prod.snd = List.range e.length := by
    rw [hsort, List.zipIdx_map_snd, List.range_eq_range']
  have hval : (List.range e.length).map (fun i => e.getD i 0) = e := by
    rw [← hidx, sorted_values, hsort, List.zipIdx_map_fst]
  unfold canonicalGeigSolve at h ⊢
  simp only at h ⊢
  split at h
  · cases h
  · rename_i hc
    rw [if_neg hc]
    simp only [Bool.false_eq_true, if_false, if_true, Except.ok.injEq, Prod.mk.injEq] at h ⊢
    obtain ⟨he, hC⟩ := h
    rw [he]
    rw [hidx]
    refine ⟨_, ⟨hval, rfl⟩, ?_⟩
    intro i j hj
    rw [← hC]
    have hr : ∀ l < e.length, (List.range e.length).getD l 0 = l := fun l hl => by rw [List.getD_eq_getElem _ _ (by simpa using hl), List.getElem_range]
    simp only [NMat.dot]
    refine Finset.sum_congr rfl fun l hl' => ?_
    have hl' : l < e.length := by
      have := Finset.mem_range.1 hl'
      rw [List.length_map] at this
      rw [hl]; exact this
    rw [hr l hl', hr j hj]

/-- the identity matrix -/
def idMat : NMat := fun i j => if i = j then 1 else 0

/-- a matrix with two diagonal entries -/
def diag2 (a b : ℂ) : NMat := fun i j => if i = j then (if i = 0 then a else b) else 0

/-- C76 refuted for sorted output: for `S = 1`, `H = diag(2, 1)` and a perfect `eig`, `canonical_geig_solve(sort_ret_vals=True)`
pairs the eigenvalue 1 with the eigenvector of 2: the columns of `X` are permuted along with those of `C'`. -/
theorem C76_sorted_vectors_refuted : ∃ (eig : EigOracle) (S H : NMat), (∀ A, A = S ∨ A = H → EigOf 2 A (eig 2 A) ∧ Orthonormal' 2 2 (eig 2 A).2) ∧
    ∃ e C, canonicalGeigSolve eig 2 S H true = .ok (e, C) ∧ ¬GEigOf 2 S H (e, C) := by
  classical
  refine ⟨fun m A => if A 0 0 = 1 then ([1, 1], idMat) else ([2, 1], idMat), idMat, diag2 2 1, ?_, ?_⟩
  · have ho : Orthonormal' 2 2 idMat := by
      intro i hi j hj
      interval_cases i <;> interval_cases j <;> simp [NMat.dot, NMat.dag, idMat, Finset.sum_range_succ]
    rintro A (rfl | rfl)
    · have h0 : idMat 0 0 = 1 := rfl
      simp only [h0, if_true]
      refine ⟨⟨rfl, ?_⟩, ho⟩
      intro i hi j hj
      interval_cases i <;> interval_cases j <;> simp [NMat.dot, idMat, Finset.sum_range_succ]
    · have h0 : ¬((diag2 2 1) 0 0 = 1) := by simp [diag2]
      simp only [if_neg h0]
      refine ⟨⟨rfl, ?_⟩, ho⟩
      intro i hi j hj
      interval_cases i <;> interval_cases j <;> simp [NMat.dot, diag2, idMat, Finset.sum_range_succ]
  · have hs : sortedLargestIdxs [2, 1] false = [(1, 1), (2, 0)] := by
      unfold sortedLargestIdxs
      simp [List.zipIdx, List.insertionSort, List.orderedInsert]
    have hX : (fun i j => idMat i j / ((Real.sqrt (List.getD [1, 1] j 0) : ℝ) : ℂ)) 0 0 = 1 := by simp [idMat]
    unfold canonicalGeigSolve
    have hid : idMat 0 0 = 1 := rfl
    simp only [hid, if_true, List.any_cons, List.any_nil, Complex.one_im, List.filter_cons, List.filter_nil, Complex.one_re]
    norm_num
    have hne : ¬(((NMat.dag (fun i j => idMat i j / ((Real.sqrt (([1, 1] : List ℝ)[j]?.getD 0) : ℝ) : ℂ))).dot 2 (diag2 2 1)).dot 2
        (fun i j => idMat i j / ((Real.sqrt (([1, 1] : List ℝ)[j]?.getD 0) : ℝ) : ℂ)) 0 0 = 1) := by
      simp [NMat.dot, NMat.dag, idMat, diag2, Finset.sum_range_succ]
    rw [if_neg hne]
    simp only [hs]
    refine ⟨_, _, ⟨rfl, rfl⟩, ?_⟩
    intro h
    have := h 0 (by norm_num) 0 (by norm_num)
    simp [NMat.dot, idMat, diag2, Finset.sum_range_succ] at this

/-- C76 refuted for rank reduction: for `S = diag(0, 1)`, `H = 1` and a perfect `eig`, the dropped direction is kept and the kept one
dropped (the columns of `U` are not filtered along with the eigenvalues): the result is `e = 1`, `C = (1, 0)` with `S C = 0`. -/
theorem C76_truncation_refuted : ∃ (eig : EigOracle) (S H : NMat), (∀ m A, (m = 2 ∧ A = S) ∨ (m = 1 ∧ A 0 0 = 1) → EigOf m A (eig m A) ∧ Orthonormal' m m (eig m A).2) ∧
    ∃ e C, canonicalGeigSolve eig 2 S H false = .ok (e, C) ∧ e = [1] ∧ ¬GEigOf 2 S H (e, C) ∧ ∀ i < 2, S.dot 2 C i 0 = 0 := by
  classical
  refine ⟨fun m A => if m = 2 then ([0, 1], idMat) else ([1], idMat), diag2 0 1, idMat, ?_, ?_⟩
  · rintro m A (⟨rfl, rfl⟩ | ⟨rfl, hA⟩)
    · refine ⟨⟨rfl, ?_⟩, ?_⟩
      · intro i hi j hj
        interval_cases i <;> interval_cases j <;> simp [NMat.dot, diag2, idMat, Finset.sum_range_succ]
      · intro i hi j hj
        interval_cases i <;> interval_cases j <;> simp [NMat.dot, NMat.dag, idMat, Finset.sum_range_succ]
    · refine ⟨⟨rfl, ?_⟩, ?_⟩
      · intro i hi j hj
        interval_cases i; interval_cases j; simp [NMat.dot, idMat, hA]
      · intro i hi j hj
        interval_cases i; interval_cases j; simp [NMat.dot, NMat.dag, idMat]
  · unfold canonicalGeigSolve
    simp only [if_true, List.any_cons, List.any_nil, Complex.one_im, Complex.zero_im, List.filter_cons, List.filter_nil, Complex.one_re, Complex.zero_re]
    norm_num
    refine ⟨_, _, ⟨rfl, rfl⟩, rfl, ?_, ?_⟩
    · intro h
      have := h 0 (by norm_num) 0 (by norm_num)
      simp [NMat.dot, idMat, diag2, Finset.sum_range_succ] at this
    · intro i hi
      interval_cases i <;> simp [NMat.dot, idMat, diag2, Finset.sum_range_succ]

/-- C76: the hypotheses of `C76_solves` are met: `eig` that answers `[1, …, 1]` and the identity for the identity matrix. -/
theorem C76_example : EigOf 2 idMat ([1, 1], idMat) ∧ Orthonormal' 2 2 idMat ∧ ∀ z ∈ ([1, 1] : List ℂ), z.im = 0 ∧ 1e-15 < z.re := by
  refine ⟨⟨rfl, ?_⟩, ?_, ?_⟩
  · intro i hi j hj
    interval_cases i <;> interval_cases j <;> simp [NMat.dot, idMat, Finset.sum_range_succ]
  · intro i hi j hj
    interval_cases i <;> interval_cases j <;> simp [NMat.dot, NMat.dag, idMat, Finset.sum_range_succ]
  · intro z hz; simp at hz; subst hz; norm_num

end QF
