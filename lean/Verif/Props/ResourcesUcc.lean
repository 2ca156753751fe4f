import Verif.Props.Resources
import Verif.Props.UccCompact
import Verif.Lemmas.JwWeight

/-!
C102: the numbers of CNOT gates of the coupled-cluster circuits.
-/
namespace QF

open SQOperator (DescSort jwTransform)
open QubitOperator (SortOracle)

/-- C102: `jw_transform` of an excitation of `r` electrons between different spin orbitals gives `2 ^ (2 r - 1)` Pauli strings, each with `2 r` letters on the orbitals
and a `Z` on each qubit with a sign -/
theorem C102_strings (o : DescSort) {n : ℕ} {c a : List ℕ} (h : Excit n c a) (hr : c.length ≤ 19) (hd : (c ++ a).Nodup) (h1 : c ≠ []) (q : Bool) :
    ∃ Q R, jwTransform o (excTerms c a) q = .ok (Q, R) ∧ Q.length = 2 ^ (2 * c.length - 1) ∧ ∀ t ∈ Q, weight t.2 = 2 * c.length + signWidth q (c ++ a) := by
  obtain ⟨Q, e, nQ, hQ, hl⟩ := jw_exc o h hr q
  have h0 : ∀ t ∈ Q, t.1 ≠ 0 := fun t ht => ne_zero_of_gt (hl t ht).1
  have h2 := support_strings nQ.canonical (Normal.nodup nQ) (n := n) (by rw [hQ]; exact acts_kappa q h.bound_c h.bound_a)
  have hpos := List.length_pos_iff.2 h1
  have hrank := h.rank
  refine ⟨Q, _, e, ?_, fun t ht => ?_⟩
  · have := kappa_number nQ.canonical (Normal.nodup nQ) q hd (by simp [h1]) h0 hQ (fun t ht => h2 t ht (h0 t ht)) fun p hp => by
      rcases List.mem_append.1 hp with hp | hp
      exacts [h.bound_c p hp, h.bound_a p hp]
    rw [List.length_append, show c.length + a.length = (2 * c.length - 1) + 1 by omega, pow_succ] at this
    omega
  · rw [kappa_weight nQ.canonical (Normal.nodup nQ) q hd h0 hQ t ht]; omega

/-- the cost of the factor of one excitation -/
theorem group_cost {o : DescSort} {n : ℕ} {c a : List ℕ} (h : Excit n c a) (hr : c.length ≤ 19) (hd : (c ++ a).Nodup) (h1 : c ≠ []) {q : Bool} {t : ℝ} {B : QubitOperator}
    (hB : GroupOf o q ((t : ℂ), excTerms c a) B) :
    (B.map fun t => ladderCost (weight t.2)).sum = if usedAmp (c, a) t = 0 then 0 else stringsCost c.length (signWidth q (c ++ a)) := by
  obtain ⟨Q, R, D, e, hop, hD, hnd, hBc, hp⟩ := hB
  obtain ⟨Q', R', e', hlen, hw⟩ := C102_strings o h hr hd h1 q
  obtain ⟨Q'', e'', nQ, hQ, hl⟩ := jw_exc o h hr q
  simp only at e hp
  rw [e] at e' e''; cases e'; cases e''
  have h0 : ∀ t ∈ Q, t.1 ≠ 0 := fun t ht => ne_zero_of_gt (hl t ht).1
  have hflat := exc_flat h nQ hQ h0
  have h4 : (0 : ℝ) < 2 ^ (c ++ a).toFinset.card := by positivity
  have hmem : ∀ x ∈ B ++ D, ∃ u ∈ Q, x = (u.1 * (t : ℂ), u.2) := by
    intro x hx
    obtain ⟨u, hu, rfl⟩ := List.mem_map.1 (hp.mem_iff.1 hx)
    exact ⟨u, hu, rfl⟩
  by_cases hu : usedAmp (c, a) t = 0
  · rw [if_pos hu]
    have hB0 : B = [] := by
      rw [List.eq_nil_iff_forall_not_mem]
      intro x hx
      have hbig := (hBc x hx).2
      obtain ⟨u, hu', rfl⟩ := hmem x (by simp [hx])
      have hb := hflat u hu'
      simp only [norm_mul, Complex.norm_real, Real.norm_eq_abs] at hbig
      unfold usedAmp at hu
      by_cases hres : AmpResolved (c, a) t
      · rw [if_pos hres] at hu; subst hu; norm_num at hbig
      · unfold AmpResolved at hres
        rw [not_or, not_lt] at hres
        have h5 := hres.2
        simp only at h5
        nlinarith [norm_nonneg u.1, abs_nonneg t]
    rw [hB0]; rfl
  · rw [if_neg hu]
    have hD0 : D = [] := by
      rw [List.eq_nil_iff_forall_not_mem]
      intro x hx
      have hsm := (hD.2 x hx).2
      obtain ⟨u, hu', rfl⟩ := hmem x (by simp [hx])
      have hb := hflat u hu'
      simp only [norm_mul, Complex.norm_real, Real.norm_eq_abs] at hsm
      unfold usedAmp at hu
      by_cases hres : AmpResolved (c, a) t
      · rw [if_pos hres] at hu
        rcases hres with hres | hres
        · exact hu hres
        · simp only at hres
          nlinarith [norm_nonneg u.1, abs_nonneg t]
      · rw [if_neg hres] at hu; exact hu rfl
    subst hD0
    rw [List.append_nil] at hp hmem
    have hcost : ∀ x ∈ B, ladderCost (weight x.2) = ladderCost (2 * c.length + signWidth q (c ++ a)) := by
      intro x hx
      obtain ⟨u, hu', rfl⟩ := hmem x hx
      rw [hw u hu']
    rw [List.map_congr_left hcost, List.map_const', List.sum_replicate, hp.length_eq, List.length_map, hlen, smul_eq_mul]
    rfl

/-- the CNOT gates of the Trotter circuit for amplitudes `ts` of the excitations `xs` -/
noncomputable def uccCost (q : Bool) (xs : List (List ℕ × List ℕ)) (ts : List ℝ) : ℕ :=
  ((List.zip ts xs).map fun p => if usedAmp p.2 p.1 = 0 then 0 else stringsCost p.2.1.length (signWidth q (p.2.1 ++ p.2.2))).sum

/-- the CNOT gates of the compact circuit for amplitudes `ts` of the excitations `xs` -/
noncomputable def uccCompactCost (q : Bool) (xs : List (List ℕ × List ℕ)) (ts : List ℝ) : ℕ :=
  ((List.zip ts xs).map fun p => compactCost p.2.1.length 0 (signWidth q (p.2.1 ++ p.2.2))).sum

/-- C102: the CNOT gates of the coupled-cluster circuit (excitations between different spin orbitals): each excitation whose amplitude is not dropped contributes, in each of
the `N` Trotter steps, `2 ^ (2 r - 1)` ladders through `2 r + s` qubits, whatever the value of the amplitude -/
theorem C102_ansatz (o : DescSort) (so : SortOracle) (A : UccAlg) (xs : List (List ℕ × List ℕ)) (h : A.Selects xs) (hs : A.saSD = false)
    (hc : A.compact = false) (hd : ∀ x ∈ xs, (x.1 ++ x.2).Nodup ∧ x.1 ≠ []) (ts : List ℝ) {C : Circuit} (hC : A.ansatzCircuit o so (some ts) = .ok C) :
    C.getNumCnots = (A.trotterNumber.toNat * uccCost A.qubitExc xs ts : ℕ) := by
  have hx := selects_sound h
  obtain ⟨Bs, e1, hB⟩ := ansatz_groups o so A.qubitExc hx ts
  unfold UccAlg.ansatzCircuit UccAlg.ansatzWith at hC
  rw [Option.getD_some, tempPool_eq h hs] at hC
  simp only [except_ok_bind, hc, Bool.false_eq_true, if_false, e1] at hC
  obtain ⟨⟨U, ph⟩, e2, hC2⟩ := Cost.bind_ok hC
  clear hC
  simp only at hC2
  by_cases hph : ph ≠ 1
  · rw [if_pos hph] at hC2; cases hC2
  rw [if_neg hph] at hC2; cases hC2
  rw [C102_trotter _ _ _ _ 0 false (.inl e2)]
  congr 2
  clear e1 e2 hph
  unfold uccCost
  have hmem : ∀ p ∈ List.zip ts xs, p.2 ∈ xs := fun p hp => (List.of_mem_zip hp).2
  revert hB hmem
  generalize List.zip ts xs = l
  intro hB hmem
  induction hB with
  | nil => rfl
  | @cons p B l Bs hp _ ih =>
    obtain ⟨h1, h2⟩ := hx p.2 (hmem p (by simp))
    obtain ⟨h3, h4⟩ := hd p.2 (hmem p (by simp))
    rw [List.flatten_cons, List.map_append, List.sum_append, ih fun p hp => hmem p (by simp [hp]), group_cost h1 h2 h3 h4 hp, List.map_cons, List.sum_cons]

/-- C102: the CNOT gates of the coupled-cluster circuit with compact excitation circuits; they do not depend on the amplitudes at all -/
theorem C102_ansatz_compact (o : DescSort) (so : SortOracle) (A : UccAlg) (xs : List (List ℕ × List ℕ)) (h : A.Selects xs) (hs : A.saSD = false)
    (hc : A.compact = true) (hd : ∀ x ∈ xs, (x.1 ++ x.2).Nodup ∧ x.1 ≠ []) (ts : List ℝ) {C : Circuit} (hC : A.ansatzCircuit o so (some ts) = .ok C) :
    C.getNumCnots = uccCompactCost A.qubitExc xs ts := by
  have hx := selects_sound h
  unfold UccAlg.ansatzCircuit UccAlg.ansatzWith at hC
  rw [Option.getD_some, tempPool_eq h hs] at hC
  simp only [except_ok_bind, hc, if_true] at hC
  have key : ∀ (xs : List (List ℕ × List ℕ)) (ts : List ℝ) (U C : Circuit), (∀ x ∈ xs, Excit A.nqb x.1 x.2) → (∀ x ∈ xs, (x.1 ++ x.2).Nodup) →
      (List.zipWith (fun (t : ℝ) (x : List ℕ × List ℕ) => ((t : ℂ), excTerms x.1 x.2)) ts xs).foldlM (fun U t => (do
        let x ← pyIndex t.2 1
        let c ← compactExcitationCircuit (t.1 * x.1) x.2.1 x.2.2 A.qubitExc
        pure (U.addCircuit c) : Except Exc Circuit)) U = .ok C → C.getNumCnots = U.getNumCnots + uccCompactCost A.qubitExc xs ts := by
    intro xs
    induction xs with
    | nil => intro ts U C _ _ h; rw [List.zipWith_nil_right] at h; cases h; simp [uccCompactCost]
    | cons x xs ih =>
      intro ts U C hx hd h
      cases ts with
      | nil => cases h; simp [uccCompactCost]
      | cons t ts =>
        rw [List.zipWith_cons_cons, List.foldlM_cons] at h
        obtain ⟨U1, h1, h⟩ := Cost.bind_ok h
        obtain ⟨y, h2, h1⟩ := Cost.bind_ok h1
        obtain ⟨c, h3, h1⟩ := Cost.bind_ok h1
        cases h1
        rw [ih ts _ C (fun x h => hx x (by simp [h])) (fun x h => hd x (by simp [h])) h, C16_additive]
        have hnd := hd x (by simp)
        have hdis := List.disjoint_of_nodup_append hnd
        have hrank := (hx x (by simp)).rank
        have hcost : c.getNumCnots = compactCost x.1.length 0 (signWidth A.qubitExc (x.1 ++ x.2)) := by
          have hy : y ∈ excTerms x.1 x.2 := by
            unfold pyIndex at h2
            split at h2
            · cases h2; exact List.mem_of_getElem? ‹_›
            · cases h2
          rcases exc_mem hy with ⟨_, e⟩ | ⟨_, e⟩
          · rw [e] at h3
            exact C102_compact _ _ _ _ (fun p hp hq => hdis hp hq) h3
          · rw [e] at h3
            rw [C102_compact _ _ _ _ (fun p hp hq => hdis hq hp) h3]
            have : signQubits (x.2 ++ x.1) = signQubits (x.1 ++ x.2) := by
              ext j
              simp only [signQubits, Set.mem_ofPred_eq, List.mem_append, List.countP_append]
              rw [add_comm, or_comm]
            unfold signWidth
            rw [this, ← hrank]
        rw [hcost]
        unfold uccCompactCost
        rw [List.zip_cons_cons, List.map_cons, List.sum_cons]
        push_cast; ring
  rw [key xs ts [] C (fun x h => (hx x h).1) (fun x h => (hd x h).1) hC, Cost.nil, zero_add]

/-- C102: the number `_n_cnot` that UCCNVQE, ADAPT-VQE, UCCNPQE and SPQE report, `build_Uvqc().get_num_cnots()`, for a reference prepared with `X` gates -/
theorem C102_reported (o : DescSort) (so : SortOracle) (A : UccAlg) (xs : List (List ℕ × List ℕ)) (h : A.Selects xs) (hs : A.saSD = false)
    (hd : ∀ x ∈ xs, (x.1 ++ x.2).Nodup ∧ x.1 ≠ []) (hp : ∀ g ∈ A.uprep, g.label = "X") (ts : List ℝ) {C : Circuit} (hC : A.buildUvqc o so (some ts) = .ok C) :
    C.getNumCnots = if A.compact then (uccCompactCost A.qubitExc xs ts : ℤ) else (A.trotterNumber.toNat * uccCost A.qubitExc xs ts : ℕ) := by
  unfold UccAlg.buildUvqc at hC
  obtain ⟨U, e, hC⟩ := Cost.bind_ok hC
  cases hC
  have hprep : A.uprep.getNumCnots = 0 := by
    rw [C16_count]
    have h1 : A.uprep.filter (fun g => isCnotLabel g.label) = [] := List.filter_eq_nil_iff.2 fun g hg => by rw [hp g hg]; decide
    have h2 : A.uprep.filter (fun g => isTripleLabel g.label) = [] := List.filter_eq_nil_iff.2 fun g hg => by rw [hp g hg]; decide
    rw [h1, h2]; rfl
  rw [C16_additive, C16_additive, hprep, Cost.nil, zero_add, zero_add]
  by_cases hc : A.compact = true
  · rw [if_pos hc]; exact C102_ansatz_compact o so A xs h hs hc hd ts e
  · rw [if_neg hc]; exact C102_ansatz o so A xs h hs (by simpa using hc) hd ts e

/-- C102: the compact circuit of an excitation never has more CNOT gates than its Trotter circuit, and fewer unless it is a single excitation with no sign -/
theorem C102_saves {r : ℕ} (hr : 1 ≤ r) (s : ℕ) : compactCost r 0 s ≤ stringsCost r s ∧ (2 ≤ r ∨ 1 ≤ s → compactCost r 0 s < stringsCost r s) := by
  unfold compactCost stringsCost ladderCost
  have h2 : 2 * r ≤ 2 ^ (2 * r - 1) := by
    obtain ⟨k, rfl⟩ : ∃ k, r = k + 1 := ⟨r - 1, by omega⟩
    rw [show 2 * (k + 1) - 1 = 2 * k + 1 by omega, pow_succ]
    have : k + 1 ≤ 2 ^ (2 * k) := le_trans (Nat.lt_two_pow_self (n := k)) (Nat.pow_le_pow_right (by norm_num) (by omega))
    omega
  rw [add_zero]
  generalize 2 ^ (2 * r - 1) = x at h2
  obtain ⟨k, rfl⟩ : ∃ k, r = k + 1 := ⟨r - 1, by omega⟩
  rw [show 2 * (2 * (k + 1) + s - 1) = 4 * k + 2 * s + 2 by omega]
  have hs1 : 2 * (s - 1) ≤ 2 * s := by omega
  have e : x * (4 * k + 2 * s + 2) = 4 * (x * k) + 2 * (x * s) + 2 * x := by ring
  have h3 : 2 * s ≤ x * s := Nat.mul_le_mul_right s (by omega)
  have h4 : 2 * k ≤ x * k := Nat.mul_le_mul_right k (by omega)
  rw [e]
  refine ⟨by omega, fun h => ?_⟩
  rcases h with h | h
  · omega
  · omega

/-- C102: so, with amplitudes none of which is dropped, the circuit with compact excitations has at most as many CNOT gates as the Trotter circuit with `N ≥ 1` steps -/
theorem C102_compact_le (q : Bool) (xs : List (List ℕ × List ℕ)) (hx : ∀ x ∈ xs, x.1 ≠ []) (ts : List ℝ) (hu : ∀ p ∈ List.zip ts xs, usedAmp p.2 p.1 ≠ 0) {N : ℤ} (hN : 1 ≤ N) :
    uccCompactCost q xs ts ≤ N.toNat * uccCost q xs ts := by
  have h1 : uccCompactCost q xs ts ≤ uccCost q xs ts := by
    unfold uccCompactCost uccCost
    refine List.sum_le_sum fun p hp => ?_
    rw [if_neg (hu p hp)]
    exact (C102_saves (List.length_pos_iff.2 (hx p.2 (List.of_mem_zip hp).2)) _).1
  have : 1 ≤ N.toNat := by omega
  nlinarith

/-- C102: the double excitation `3 2 ← 1 0` has 8 strings of 4 letters, 48 CNOT gates; its compact circuit has 14.  The single excitation `3 ← 0` passes its sign through two
qubits: 2 strings of 4 letters, 12 CNOT gates; its compact circuit has 6. -/
theorem C102_example (o : DescSort) (t : ℝ) :
    (∃ Q R, jwTransform o (excTerms [3, 2] [1, 0]) false = .ok (Q, R) ∧ Q.length = 8 ∧ ∀ t ∈ Q, weight t.2 = 4) ∧ stringsCost 2 0 = 48 ∧
    (∃ Q R, jwTransform o (excTerms [3] [0]) false = .ok (Q, R) ∧ Q.length = 2 ∧ ∀ t ∈ Q, weight t.2 = 4) ∧ stringsCost 1 2 = 12 ∧
    (∃ C, compactExcitationCircuit (t : ℂ) [3, 2] [1, 0] false = .ok C ∧ C.getNumCnots = 14) ∧ ∃ C, compactExcitationCircuit (t : ℂ) [3] [0] false = .ok C ∧ C.getNumCnots = 6 := by
  have s1 : signWidth false ([3, 2] ++ [1, 0]) = 0 := by
    have : signQubits ([3, 2] ++ [1, 0]) = ∅ := by
      ext j
      simp only [signQubits, List.cons_append, List.nil_append, Set.mem_ofPred_eq, Set.mem_empty_iff_false, iff_false, not_and]
      intro hj ho
      simp only [List.mem_cons, List.not_mem_nil, or_false, not_or] at hj
      rw [show ([3, 2, 1, 0] : List ℕ).countP (j < ·) = 0 by rw [List.countP_eq_zero]; intro p hp; simp only [List.mem_cons, List.not_mem_nil, or_false] at hp; simp only [decide_eq_true_eq]; omega] at ho
      exact absurd ho (by decide)
    rw [signWidth, this]; simp
  have s2 : signWidth false ([3] ++ [0]) = 2 := by
    have : signQubits ([3] ++ [0]) = (({1, 2} : Finset ℕ) : Set ℕ) := by
      ext j
      simp only [signQubits, List.cons_append, List.nil_append, Set.mem_ofPred_eq, Finset.coe_insert, Finset.coe_singleton, Set.mem_insert_iff, Set.mem_singleton_iff,
        List.mem_cons, List.not_mem_nil, or_false, not_or, List.countP_cons, List.countP_nil, decide_eq_true_eq, Nat.not_lt_zero, if_false, add_zero, zero_add]
      by_cases h3 : j < 3
      · interval_cases j <;> simp
      · simp only [if_neg h3]
        constructor
        · rintro ⟨-, ho⟩; exact absurd ho (by decide)
        · intro h; omega
    simp only [signWidth, this, Bool.false_eq_true, if_false]
    rw [Set.ncard_coe_finset]; rfl
  have x1 : Excit 4 [3, 2] [1, 0] := ⟨by decide, by decide, by decide, by decide, by decide, by decide⟩
  have x2 : Excit 4 [3] [0] := ⟨by decide, by decide, by decide, by decide, by decide, by decide⟩
  obtain ⟨Q1, R1, a1, b1, c1⟩ := C102_strings o x1 (by decide) (by decide) (by decide) false
  obtain ⟨Q2, R2, a2, b2, c2⟩ := C102_strings o x2 (by decide) (by decide) (by decide) false
  rw [s1] at c1
  rw [s2] at c2
  obtain ⟨C1, d1, -⟩ := C61_sorted t [3, 2] [1, 0] (by decide) rfl (by decide) false (.inl ⟨by decide, by decide⟩)
  obtain ⟨C2, d2, -⟩ := C61_sorted t [3] [0] (by decide) rfl (by decide) false (.inl ⟨by decide, by decide⟩)
  refine ⟨⟨Q1, R1, a1, b1, c1⟩, by decide, ⟨Q2, R2, a2, b2, c2⟩, by decide, ⟨C1, d1, ?_⟩, C2, d2, ?_⟩
  · rw [C102_compact _ _ _ _ (by decide) d1, s1]; rfl
  · rw [C102_compact _ _ _ _ (by decide) d2, s2]; rfl

end QF
