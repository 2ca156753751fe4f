import Verif.Props.Symmetry
import Verif.Props.Lifecycle

/-!
C94, continued: the reported weights add up, sharp values, the odd registers.
-/
namespace QF
open SQOperator QubitOperator

open Classical in
theorem sector_sum {ψ : St} {n L : ℕ} (P : ℕ → ℕ → Prop) (g : ℕ → ℝ) (f : ℕ → ℝ) (h : ∀ I < 2 ^ n, ∃ i < L, g i = f I ∧ ∀ j < L, P j I ↔ j = i) :
    ∑ i ∈ Finset.range L, g i * sectorWeight n ψ (P i) = diagMean n ψ f := by
  unfold sectorWeight diagMean
  simp_rw [Finset.mul_sum, Finset.sum_filter]
  rw [Finset.sum_comm]
  refine Finset.sum_congr rfl fun I hI => ?_
  obtain ⟨i, hi, hg, hu⟩ := h I (Finset.mem_range.1 hI)
  rw [Finset.sum_eq_single i]
  · rw [if_pos ((hu i hi).2 rfl), hg]
  · intro j hj hne
    rw [if_neg (fun hp => hne ((hu j (Finset.mem_range.1 hj)).1 hp))]
  · intro h; exact absurd (Finset.mem_range.2 hi) h

theorem diagMean_one (n : ℕ) (ψ : St) : diagMean n ψ (fun _ => 1) = nrm n ψ ^ 2 := by
  unfold diagMean nrm
  rw [Real.sq_sqrt (Finset.sum_nonneg fun _ _ => by positivity)]
  simp

theorem electrons_le (n I : ℕ) : electrons n I ≤ n := by
  unfold electrons
  have := Finset.card_filter_le (Finset.range n) fun p => I.testBit p = true
  rwa [Finset.card_range] at this

/-- the spin projections of the determinants -/
theorem spinOf_index (k I : ℕ) : ∃ i ≤ 2 * k, spinOf (2 * k) I = ((i : ℝ) - k) / 2 := by
  have hA : (occAlpha (2 * k) I).length ≤ k := by
    unfold occAlpha; rw [evens_two]
    exact le_trans (List.length_filter_le _ _) (by simp)
  have hB : (occBeta (2 * k) I).length ≤ k := by
    unfold occBeta; rw [evens_two, List.length_map]
    exact le_trans (List.length_filter_le _ _) (by simp)
  refine ⟨k + (occAlpha (2 * k) I).length - (occBeta (2 * k) I).length, by omega, ?_⟩
  rw [← occ_spin, Nat.cast_sub (by omega)]
  push_cast; ring

theorem sum_map_range_real (L : ℕ) (f : ℕ → ℝ) : ((List.range L).map f).sum = ∑ i ∈ Finset.range L, f i := by
  induction L with
  | zero => simp
  | succ L ih => rw [List.range_succ, List.map_append, List.sum_append, ih, Finset.sum_range_succ]; simp

/-- C94: each list of weights adds up to the squared norm, and the reported means are the averages of the sectors with the
reported weights. -/
theorem C94_consistent (o : DescSort) (k : ℕ) (q : Computer) (hq : q.WF) (hn : q.nqubit = 2 * k) (irreps : List String) (orb : List ℕ) (e : ℕ)
    (hi : irreps.length = 2 ^ e) (hr : ∀ r ∈ orb, r < 2 ^ e) (ho : k ≤ orb.length) (tN : ℤ) (tSz : ℝ) (tIr : ℕ) (ht : tIr < irreps.length) :
    ∃ r q', symmetryCheck o none (2 * k) q irreps orb tN tSz tIr = .ok (r, q') ∧
      r.nWeights.sum = nrm (2 * k) q.psi ^ 2 ∧ r.szWeights.sum = nrm (2 * k) q.psi ^ 2 ∧ r.irrepWeights.sum = nrm (2 * k) q.psi ^ 2 ∧
      r.nExp = ∑ N ∈ Finset.range (2 * k + 1), (N : ℝ) * r.nWeights.getD N 0 ∧
      r.szExp = ∑ i ∈ Finset.range (2 * k + 1), r.szValues.getD i 0 * r.szWeights.getD i 0 := by
  obtain ⟨r, q', e1, _, w1, x1, _, v1, w2, x2, _, _, _, w3, _⟩ := C94_report o k q hq hn irreps orb e hi hr ho tN tSz tIr ht
  have hsz : ∀ I < 2 ^ (2 * k), ∃ i < 2 * k + 1, spinOf (2 * k) I = ((i : ℝ) - k) / 2 ∧ ∀ j < 2 * k + 1, spinOf (2 * k) I = ((j : ℝ) - k) / 2 ↔ j = i := by
    intro I _
    obtain ⟨i, hi, e⟩ := spinOf_index k I
    refine ⟨i, by omega, e, fun j _ => ⟨fun h => ?_, fun h => h ▸ e⟩⟩
    rw [e] at h
    have : (j : ℝ) = i := by linarith
    exact_mod_cast this
  have one : ∀ {L : ℕ} (P : ℕ → ℕ → Prop), (∀ I < 2 ^ (2 * k), ∃ i < L, ∀ j < L, P j I ↔ j = i) →
      ((List.range L).map fun i => sectorWeight (2 * k) q.psi (P i)).sum = nrm (2 * k) q.psi ^ 2 := by
    intro L P h
    rw [sum_map_range_real, ← diagMean_one, ← sector_sum P (fun _ => 1) (fun _ => 1) (L := L) (fun I hI => by
      obtain ⟨i, h1, h2⟩ := h I hI; exact ⟨i, h1, rfl, h2⟩)]
    simp
  refine ⟨r, q', e1, ?_, ?_, ?_, ?_, ?_⟩
  · rw [w1]
    exact one (fun i I => electrons (2 * k) I = i) fun I _ => ⟨_, by have := electrons_le (2 * k) I; omega, fun j _ => eq_comm⟩
  · rw [w2]
    refine one (fun i I => spinOf (2 * k) I = ((i : ℝ) - k) / 2) fun I hI => ?_
    obtain ⟨i, h1, _, h2⟩ := hsz I hI
    exact ⟨i, h1, h2⟩
  · rw [w3]
    exact one (fun i I => detIrrep orb (2 * k) I = i) fun I _ => ⟨_, by rw [hi]; exact detIrrep_lt hr _ I, fun j _ => eq_comm⟩
  · rw [x1, w1, ← sector_sum (fun i I => electrons (2 * k) I = i) (fun i => (i : ℝ)) (L := 2 * k + 1) _
      (fun I _ => ⟨electrons (2 * k) I, by have := electrons_le (2 * k) I; omega, rfl, fun j _ => eq_comm⟩)]
    refine Finset.sum_congr rfl fun N hN => ?_
    rw [List.getD_eq_getElem _ _ (by simpa using hN), List.getElem_map, List.getElem_range]
  · rw [x2, w2, v1, ← sector_sum (fun i I => spinOf (2 * k) I = ((i : ℝ) - k) / 2) (fun i => ((i : ℝ) - k) / 2) (L := 2 * k + 1) _
      (fun I hI => by obtain ⟨i, h1, h2, h3⟩ := hsz I hI; exact ⟨i, h1, h2.symm, h3⟩)]
    refine Finset.sum_congr rfl fun N hN => ?_
    rw [List.getD_eq_getElem _ _ (by simpa using hN), List.getD_eq_getElem _ _ (by simpa using hN), List.getElem_map, List.getElem_map, List.getElem_range]

/-! ### sharp values -/

theorem var_form {n : ℕ} {ψ : St} (h1 : nrm n ψ = 1) (f : ℕ → ℝ) :
    diagMean n ψ (fun I => f I ^ 2) - diagMean n ψ f ^ 2 = diagMean n ψ fun I => (f I - diagMean n ψ f) ^ 2 := by
  have ho : ∑ I ∈ Finset.range (2 ^ n), ‖ψ I‖ ^ 2 = 1 := by
    have := diagMean_one n ψ
    rw [h1] at this
    simpa [diagMean] using this
  set μ := diagMean n ψ f with hμ
  have : diagMean n ψ (fun I => (f I - μ) ^ 2) = diagMean n ψ (fun I => f I ^ 2) - 2 * μ * diagMean n ψ f + μ ^ 2 * ∑ I ∈ Finset.range (2 ^ n), ‖ψ I‖ ^ 2 := by
    unfold diagMean
    rw [Finset.mul_sum, Finset.mul_sum, ← Finset.sum_sub_distrib, ← Finset.sum_add_distrib]
    refine Finset.sum_congr rfl fun I _ => ?_
    ring
  rw [this, ho, ← hμ]; ring

theorem var_zero {n : ℕ} {ψ : St} (h1 : nrm n ψ = 1) (f : ℕ → ℝ) :
    0 ≤ diagMean n ψ (fun I => f I ^ 2) - diagMean n ψ f ^ 2 ∧
    (diagMean n ψ (fun I => f I ^ 2) - diagMean n ψ f ^ 2 = 0 ↔ ∃ I₀ < 2 ^ n, sectorWeight n ψ (fun I => f I = f I₀) = 1) := by
  classical
  have ho : ∑ I ∈ Finset.range (2 ^ n), ‖ψ I‖ ^ 2 = 1 := by
    have := diagMean_one n ψ
    rw [h1] at this
    simpa [diagMean] using this
  have split : ∀ P : ℕ → Prop, sectorWeight n ψ P + ∑ I ∈ (Finset.range (2 ^ n)).filter (fun I => ¬ P I), ‖ψ I‖ ^ 2 = 1 := by
    intro P
    unfold sectorWeight
    rw [Finset.sum_filter_add_sum_filter_not, ho]
  rw [var_form h1]
  have nn : ∀ I ∈ Finset.range (2 ^ n), 0 ≤ (f I - diagMean n ψ f) ^ 2 * ‖ψ I‖ ^ 2 := fun I _ => by positivity
  refine ⟨Finset.sum_nonneg nn, ?_⟩
  constructor
  · intro h
    have hz := (Finset.sum_eq_zero_iff_of_nonneg nn).1 h
    obtain ⟨I₀, h0, hne⟩ : ∃ I₀ ∈ Finset.range (2 ^ n), ‖ψ I₀‖ ^ 2 ≠ 0 := by
      by_contra hcon
      push Not at hcon
      rw [Finset.sum_eq_zero hcon] at ho
      norm_num at ho
    have hμ : ∀ I ∈ Finset.range (2 ^ n), ‖ψ I‖ ^ 2 ≠ 0 → f I = diagMean n ψ f := by
      intro I hI hw
      have := (mul_eq_zero.1 (hz I hI)).resolve_right hw
      exact sub_eq_zero.1 (pow_eq_zero_iff (by norm_num) |>.1 this)
    refine ⟨I₀, Finset.mem_range.1 h0, ?_⟩
    have := split fun I => f I = f I₀
    rw [Finset.sum_eq_zero, add_zero] at this
    · exact this
    intro I hI
    rw [Finset.mem_filter] at hI
    by_contra hw
    exact hI.2 ((hμ I hI.1 hw).trans (hμ I₀ h0 hne).symm)
  · rintro ⟨I₀, h0, hw⟩
    have h2 := split fun I => f I = f I₀
    rw [hw] at h2
    have hz := (Finset.sum_eq_zero_iff_of_nonneg (fun I _ => by positivity)).1 (add_eq_left.1 h2)
    have hall : ∀ I ∈ Finset.range (2 ^ n), f I = f I₀ ∨ ‖ψ I‖ ^ 2 = 0 := by
      intro I hI
      by_cases hp : f I = f I₀
      · exact .inl hp
      · exact .inr (hz I (Finset.mem_filter.2 ⟨hI, hp⟩))
    have hμ : diagMean n ψ f = f I₀ := by
      unfold diagMean
      rw [← mul_one (f I₀), ← ho, Finset.mul_sum]
      refine Finset.sum_congr rfl fun I hI => ?_
      rcases hall I hI with h | h
      · rw [h]
      · rw [h, mul_zero, mul_zero]
    rw [hμ]
    refine Finset.sum_eq_zero fun I hI => ?_
    rcases hall I hI with h | h
    · simp only [h, sub_self]; simp
    · rw [h, mul_zero]

theorem herm_var {n : ℕ} {A : Op} (hA : HermitianOn n A) {ψ : St} (h1 : nrm n ψ = 1) {e v : ℝ} (he : (e : ℂ) = inner n ψ (A ψ))
    (hv : (v : ℂ) = inner n ψ (A (A ψ)) - inner n ψ (A ψ) ^ 2) : 0 ≤ v ∧ (v = 0 ↔ ∀ I < 2 ^ n, A ψ I = e * ψ I) := by
  have key : v = nrm n (A ψ - (e : ℂ) • ψ) ^ 2 := by
    have : ((nrm n (A ψ - (e : ℂ) • ψ) ^ 2 : ℝ) : ℂ) = v := by
      rw [nrm_sq_inner]
      have c1 : ∀ a b : St, inner n (A ψ - (e : ℂ) • ψ) a = inner n (A ψ) a - e * inner n ψ a := by
        intro a b
        unfold inner
        rw [Finset.mul_sum, ← Finset.sum_sub_distrib]
        refine Finset.sum_congr rfl fun I _ => ?_
        simp only [Pi.sub_apply, Pi.smul_apply, smul_eq_mul, map_sub, map_mul, Complex.conj_ofReal]; ring
      have n1 : inner n ψ ψ = 1 := by rw [← nrm_sq_inner, h1]; norm_num
      rw [c1 _ ψ, inner_sub_right, inner_sub_right, inner_smul_right, inner_smul_right, ← hA, ← hA, n1, hv, ← he]
      ring
    exact_mod_cast this.symm
  refine ⟨by rw [key]; positivity, ?_⟩
  rw [key, nrm_sq, Finset.sum_eq_zero_iff_of_nonneg (fun I _ => by positivity)]
  constructor
  · intro h I hI
    have := h I (Finset.mem_range.2 hI)
    rw [pow_eq_zero_iff (by norm_num), norm_eq_zero, Pi.sub_apply, Pi.smul_apply, smul_eq_mul, sub_eq_zero] at this
    exact this
  · intro h I hI
    rw [pow_eq_zero_iff (by norm_num), norm_eq_zero, Pi.sub_apply, Pi.smul_apply, smul_eq_mul, sub_eq_zero]
    exact h I (Finset.mem_range.1 hI)

/-- C94: for a normalised state no reported variance is negative; that of `N` (of `S_z`) vanishes exactly when one of the reported
weights is 1, that of `S²` exactly when the state is an eigenvector of `S²` with the reported eigenvalue. -/
theorem C94_sharp (o : DescSort) (k : ℕ) (q : Computer) (hq : q.WF) (hn : q.nqubit = 2 * k) (h1 : nrm (2 * k) q.psi = 1) (irreps : List String)
    (orb : List ℕ) (e : ℕ) (hi : irreps.length = 2 ^ e) (hr : ∀ r ∈ orb, r < 2 ^ e) (ho : k ≤ orb.length) (tN : ℤ) (tSz : ℝ) (tIr : ℕ)
    (ht : tIr < irreps.length) :
    ∃ r q', symmetryCheck o none (2 * k) q irreps orb tN tSz tIr = .ok (r, q') ∧
      0 ≤ r.nVar ∧ 0 ≤ r.szVar ∧ 0 ≤ r.s2Var ∧ (r.nVar = 0 ↔ 1 ∈ r.nWeights) ∧ (r.szVar = 0 ↔ 1 ∈ r.szWeights) ∧
      (r.s2Var = 0 ↔ ∀ I < 2 ^ (2 * k), S2Op k q.psi I = r.s2Exp * q.psi I) := by
  obtain ⟨r, q', e1, _, w1, _, x1, _, w2, _, x2, x3, x4, _⟩ := C94_report o k q hq hn irreps orb e hi hr ho tN tSz tIr ht
  have v1 := var_zero h1 fun I => (electrons (2 * k) I : ℝ)
  have v2 := var_zero h1 (spinOf (2 * k))
  have v3 := herm_var (s2_herm k) h1 x3 x4
  rw [← x1] at v1
  rw [← x2] at v2
  have empty : ∀ P : ℕ → Prop, sectorWeight (2 * k) q.psi P = 1 → ∃ I < 2 ^ (2 * k), P I := by
    classical
    intro P hP
    by_contra hcon
    push Not at hcon
    unfold sectorWeight at hP
    rw [Finset.filter_false_of_mem (fun I hI => hcon I (Finset.mem_range.1 hI))] at hP
    norm_num at hP
  refine ⟨r, q', e1, v1.1, v2.1, v3.1, v1.2.trans ?_, v2.2.trans ?_, v3.2⟩
  · rw [w1, List.mem_map]
    constructor
    · rintro ⟨I₀, _, h⟩
      refine ⟨electrons (2 * k) I₀, List.mem_range.2 (by have := electrons_le (2 * k) I₀; omega), ?_⟩
      rw [← h]; simp
    · rintro ⟨N, _, h⟩
      obtain ⟨I, hI, rfl⟩ := empty _ h
      refine ⟨I, hI, ?_⟩
      rw [← h]; simp
  · rw [w2, List.mem_map]
    constructor
    · rintro ⟨I₀, _, h⟩
      obtain ⟨i, hi, e⟩ := spinOf_index k I₀
      refine ⟨i, List.mem_range.2 (by omega), ?_⟩
      rw [← h, e]
    · rintro ⟨i, _, h⟩
      obtain ⟨I, hI, hs⟩ := empty _ h
      refine ⟨I, hI, ?_⟩
      rw [← h, hs]

/-! ### odd registers -/

/-- C94: on an odd number of spin orbitals `symmetry_check` never returns: the projections in its table are odd multiples of
1/4, and the first determinant already has projection 0. -/
theorem C94_odd (o : DescSort) (par : Option Schedule) (n : ℕ) (hn : n % 2 = 1) (q : Computer) (irreps : List String) (orb : List ℕ) (tN : ℤ) (tSz : ℝ)
    (tIr : ℤ) (r : SymReport × Computer) : symmetryCheck o par n q irreps orb tN tSz tIr ≠ .ok r := by
  intro h
  unfold symmetryCheck at h
  obtain ⟨_, _, h⟩ := bind_ok h
  obtain ⟨⟨_, _, q1⟩, _, h⟩ := bind_ok h
  obtain ⟨_, _, h⟩ := bind_ok h
  obtain ⟨⟨_, _, q2⟩, _, h⟩ := bind_ok h
  obtain ⟨_, _, h⟩ := bind_ok h
  obtain ⟨⟨_, _, q3⟩, _, h⟩ := bind_ok h
  obtain ⟨acc, hacc, _⟩ := bind_ok h
  obtain ⟨m, hm⟩ : ∃ m, 1 <<< n = m + 1 := ⟨2 ^ n - 1, by rw [Nat.one_shiftLeft]; have := Nat.two_pow_pos n; omega⟩
  rw [hm, List.range_succ_eq_map, List.foldlM_cons] at hacc
  obtain ⟨s, hs, _⟩ := bind_ok hacc
  unfold symDet at hs
  have ha : occAlpha n 0 = [] := by simp [occAlpha]
  have hb : occBeta n 0 = [] := by simp [occBeta]
  rw [ha, hb] at hs
  obtain ⟨_, _, hs⟩ := bind_ok hs
  obtain ⟨_, _, hs⟩ := bind_ok hs
  obtain ⟨_, _, hs⟩ := bind_ok hs
  obtain ⟨i, hi, _⟩ := bind_ok hs
  unfold szIndex at hi
  have e : (szValues n).idxOf? ((((([] : List ℕ).length : ℕ) : ℝ) - (([] : List ℕ).length : ℕ)) * 0.5) = none := by
    rw [List.idxOf?_eq_none_iff]
    unfold szValues
    intro hmem
    obtain ⟨i, _, h⟩ := List.mem_map.1 hmem
    have h2 : ((2 * i : ℕ) : ℝ) = n := by push_cast; simp at h; linarith
    have h3 : 2 * i = n := by exact_mod_cast h2
    omega
  rw [e] at hi
  cases hi

/-- the hypotheses of C94 on a concrete case: two spatial orbitals of irreps 0 and 1 of C2 on four qubits; the vacuum is a
normalised state -/
example : (Computer.init 4).WF ∧ (Computer.init 4).nqubit = 2 * 2 ∧ nrm (2 * 2) (Computer.init 4).psi = 1 ∧ ["A", "B"].length = 2 ^ 1 ∧
    (∀ r ∈ [0, 1], r < 2 ^ 1) ∧ 2 ≤ [0, 1].length := by
  refine ⟨⟨rfl, by simp [Computer.init], rfl⟩, rfl, ?_, rfl, by simp, by simp⟩
  unfold nrm
  rw [init_psi, Finset.sum_eq_single 0] <;> simp

/-- sectors of the determinant with spin orbitals 1 and 2 occupied: two electrons, irrep 1 -/
example : electrons 4 6 = 2 ∧ detIrrep [0, 1] 4 6 = 1 ∧ spinOf 4 6 = 0 ∧ spinOf 4 5 = 1 := by
  refine ⟨by decide, by decide, ?_, ?_⟩ <;> (unfold spinOf; simp [Finset.sum_range_succ, Nat.testBit]; try norm_num)

end QF
