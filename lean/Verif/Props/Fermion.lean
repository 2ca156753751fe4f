import Verif.Lemmas.SQIndep

/-!
C34 permutation parity, C35 canonical ordering and simplification of second-quantised operators,
C36 Jordan-Wigner transform, C37 anticommutation of the images.
-/
namespace QF
open SQOperator

/-! ### C34 -/

/-- C34: for every permutation, of any size, the phase is true exactly for odd permutations. -/
theorem C34_permutation_phase {n : ℕ} (σ : Equiv.Perm (Fin n)) :
    permutationPhase (List.ofFn fun i => (σ i : ℕ)) = .ok (decide (Equiv.Perm.sign σ = -1)) := permutationPhase_perm σ

/-- C34: on a list that is not a rearrangement of `0, …, n-1` the loop leaves the vector or does not end. -/
theorem C34_only_permutations (p : List ℕ) : (∃ b, permutationPhase p = .ok b) ↔ p.Perm (List.range p.length) := by
  constructor
  · rintro ⟨b, h⟩; exact phase_ok_perm p b h
  · intro h
    obtain ⟨σ, hσ⟩ := exists_permList p p.length h
    exact ⟨_, by conv_lhs => rw [hσ]
                 exact permutationPhase_perm σ⟩

/-- C34: the phase of a composition is the exclusive or of the phases. -/
theorem C34_composition {n : ℕ} (σ τ : Equiv.Perm (Fin n)) (b c : Bool)
    (h1 : permutationPhase (List.ofFn fun i => (σ i : ℕ)) = .ok b) (h2 : permutationPhase (List.ofFn fun i => (τ i : ℕ)) = .ok c) :
    permutationPhase (List.ofFn fun i => (σ (τ i) : ℕ)) = .ok (b ^^ c) := by
  have := C34_permutation_phase (σ * τ)
  rw [C34_permutation_phase] at h1 h2
  cases h1; cases h2
  simp only [Equiv.Perm.mul_apply] at this
  rw [this, Equiv.Perm.sign_mul]
  rcases Int.units_eq_one_or (Equiv.Perm.sign σ) with h | h <;> rcases Int.units_eq_one_or (Equiv.Perm.sign τ) with h' | h' <;>
    rw [h, h'] <;> simp

/-- the identity is even, a transposition odd -/
theorem C34_example : permutationPhase [0, 1, 2] = .ok false ∧ permutationPhase [2, 1, 0] = .ok true ∧
    permutationPhase [1, 2, 0] = .ok false := by
  refine ⟨?_, ?_, ?_⟩
  · have := C34_permutation_phase (1 : Equiv.Perm (Fin 3)); simpa using this
  · have := C34_permutation_phase (Equiv.swap (0 : Fin 3) 2)
    rw [Equiv.Perm.sign_swap (by decide)] at this
    simpa [Equiv.swap_apply_def] using this
  · have := C34_permutation_phase (Equiv.swap (0 : Fin 3) 1 * Equiv.swap 1 2)
    rw [Equiv.Perm.sign_mul, Equiv.Perm.sign_swap (by decide), Equiv.Perm.sign_swap (by decide)] at this
    simpa [Equiv.swap_apply_def] using this

/-! ### C35 -/

/-- C35: `canonical_order` never fails; in every term the indices are rearranged into descending order, the coefficient
changes at most its sign, and the linear operator of every term is unchanged. -/
theorem C35_canonical_order (o : DescSort) (A : SQOperator) : ∃ A', canonicalOrder o A = .ok A' ∧
    List.Forall₂ (fun t t' : SQTerm => t'.2.1.Perm t.2.1 ∧ t'.2.2.Perm t.2.2 ∧ SQTerm.Descending t' ∧ (t'.1 = t.1 ∨ t'.1 = -t.1) ∧
      t'.1 • fermiString t'.2.1 t'.2.2 = t.1 • fermiString t.2.1 t.2.2) A A' ∧ SQOperator.op A' = SQOperator.op A := by
  obtain ⟨A', e, h⟩ := SQOperator.canonicalOrder_ok o A
  exact ⟨A', e, h.imp fun t t' h => ⟨h.cre, h.ann, h.desc, h.coef, h.op⟩, canonStep_sum h⟩

theorem forall2_mem_right {α β : Type*} {R : α → β → Prop} {A : List α} {B : List β} (h : List.Forall₂ R A B) {u : β} (hu : u ∈ B) :
    ∃ w ∈ A, R w u := by
  induction h with
  | nil => simp at hu
  | cons h1 _ ih =>
    rcases List.mem_cons.1 hu with rfl | hu
    · exact ⟨_, by simp, h1⟩
    · obtain ⟨w, hw, h2⟩ := ih hu
      exact ⟨w, by simp [hw], h2⟩

theorem filter_split_sq {M : Type} [AddCommGroup M] [Module ℂ M] (f : Key → M) (F : List (Key × ℂ)) (q : Key × ℂ → Bool) :
    (F.map fun e => e.2 • f e.1).sum = ((F.filter q).map fun e => e.2 • f e.1).sum + ((F.filter fun e => !q e).map fun e => e.2 • f e.1).sum := by
  induction F with
  | nil => simp
  | cons e F ih =>
    by_cases h : q e
    · simp only [List.filter_cons, h, if_true, List.map_cons, List.sum_cons, ih, Bool.not_true, Bool.false_eq_true, if_false]; abel
    · simp only [Bool.not_eq_true] at h
      simp only [List.filter_cons, h, Bool.false_eq_true, if_false, List.map_cons, List.sum_cons, ih, Bool.not_false, if_true]; abel

theorem simplify_eq (o : DescSort) (A A' : SQOperator) (h : canonicalOrder o A = .ok A') :
    simplify o A = .ok (((SQOperator.buildMap A').filter fun e => decide (‖e.2‖ > 1e-12)).map fun e => (e.2, e.1)) := by
  unfold simplify; rw [h]; rfl

/-- C35: `simplify` never fails.  The result has every pair of index lists once, in descending order and with the terms
sorted, keeps only coefficients above 1e-12, and denotes the same operator up to dropped terms, each of which has
its own index lists and a coefficient of at most 1e-12. -/
theorem C35_simplify (o : DescSort) (A : SQOperator) : ∃ R D : SQOperator, simplify o A = .ok R ∧
    SQOperator.op A = SQOperator.op R + SQOperator.op D ∧
    (∀ t ∈ R ++ D, SQTerm.Descending t ∧ ∃ u ∈ A, t.2.1.Perm u.2.1 ∧ t.2.2.Perm u.2.2) ∧ ((R ++ D).map Prod.snd).Nodup ∧
    (R.Pairwise fun a b => klt a.2 b.2 = true) ∧
    (∀ t ∈ R, 1e-12 < ‖t.1‖) ∧ ∀ t ∈ D, ‖t.1‖ ≤ 1e-12 := by
  obtain ⟨A', e, h⟩ := SQOperator.canonicalOrder_ok o A
  obtain ⟨f1, f2, f3⟩ := SQOperator.buildMap_facts A'
  refine ⟨_, ((SQOperator.buildMap A').filter fun e => !decide (‖e.2‖ > 1e-12)).map fun e => (e.2, e.1), simplify_eq o A A' e, ?_, ?_, ?_, ?_, ?_, ?_⟩
  · rw [← canonStep_sum h]
    unfold SQOperator.op
    have := f3 (fun k => fermiString k.1 k.2)
    rw [← this, filter_split_sq (fun k => fermiString k.1 k.2) _ (fun e => decide (‖e.2‖ > 1e-12))]
    simp only [List.map_map, Function.comp_def]
  · intro t ht
    have ht' : t.2 ∈ (SQOperator.buildMap A').map Prod.fst := by
      rcases List.mem_append.1 ht with h | h
      · obtain ⟨e, he, rfl⟩ := List.mem_map.1 h; exact List.mem_map_of_mem (List.mem_filter.1 he).1
      · obtain ⟨e, he, rfl⟩ := List.mem_map.1 h; exact List.mem_map_of_mem (List.mem_filter.1 he).1
    rw [f2] at ht'
    obtain ⟨u, hu, e⟩ := List.mem_map.1 ht'
    have : ∃ w ∈ A, CanonStep w u := forall2_mem_right h hu
    obtain ⟨w, hw, hs⟩ := this
    unfold SQTerm.Descending
    rw [← e]
    exact ⟨hs.desc, w, hw, hs.cre, hs.ann⟩
  · rw [← List.map_append, List.map_map]
    have hperm : ((SQOperator.buildMap A').filter (fun e => decide (‖e.2‖ > 1e-12)) ++ (SQOperator.buildMap A').filter (fun e => !decide (‖e.2‖ > 1e-12))).Perm (SQOperator.buildMap A') :=
      List.filter_append_perm _ _
    have hnd : ((SQOperator.buildMap A').map Prod.fst).Nodup := by
      rw [List.nodup_iff_pairwise_ne, List.pairwise_map]
      exact f1.imp (by intro a b h e; exact klt_irrefl b.1 (e ▸ h))
    exact ((hperm.map Prod.fst).nodup_iff).2 hnd
  · rw [List.pairwise_map]; exact f1.filter _
  · intro t ht
    obtain ⟨e, he, rfl⟩ := List.mem_map.1 ht
    simpa using (List.mem_filter.1 he).2
  · intro t ht
    obtain ⟨e, he, rfl⟩ := List.mem_map.1 ht
    simpa using (List.mem_filter.1 he).2


/-! normal form -/

/-- total coefficient of a pair of index lists -/
noncomputable def coefS (A : SQOperator) (s : Key) : ℂ := by
  classical exact (A.map fun t => t.1 • if t.2 = s then (1 : ℂ) else 0).sum

theorem map_entry {m : List (Key × ℂ)} (hn : (m.map Prod.fst).Nodup) {e : Key × ℂ} (he : e ∈ m) :
    (by classical exact (m.map fun x => x.2 • if x.1 = e.1 then (1 : ℂ) else 0).sum) = e.2 := by
  classical
  induction m with
  | nil => simp at he
  | cons x m ih =>
    simp only [List.map_cons, List.nodup_cons] at hn
    rw [List.map_cons, List.sum_cons]
    rcases List.mem_cons.1 he with rfl | h
    · rw [if_pos rfl]
      have : (m.map fun x => x.2 • if x.1 = e.1 then (1 : ℂ) else 0).sum = 0 := by
        apply List.sum_eq_zero
        intro z hz
        obtain ⟨y, hy, rfl⟩ := List.mem_map.1 hz
        rw [if_neg, smul_zero]
        intro e'; exact hn.1 (e' ▸ List.mem_map_of_mem hy)
      rw [this]; simp
    · rw [if_neg, smul_zero, zero_add]
      · exact ih hn.2 h
      · intro e'; exact hn.1 (e' ▸ List.mem_map_of_mem h)

theorem buildMap_nodup (A : SQOperator) : ((SQOperator.buildMap A).map Prod.fst).Nodup := by
  rw [List.nodup_iff_pairwise_ne, List.pairwise_map]
  exact (SQOperator.buildMap_facts A).1.imp (by intro a b h e; exact klt_irrefl b.1 (e ▸ h))

theorem buildMap_value {A : SQOperator} {e : Key × ℂ} (he : e ∈ SQOperator.buildMap A) : e.2 = coefS A e.1 := by
  classical
  rw [← map_entry (buildMap_nodup A) he]
  exact (SQOperator.buildMap_facts A).2.2 (fun k => if k = e.1 then (1 : ℂ) else 0)

theorem coefS_determined {A B : SQOperator} (hA : ∀ t ∈ A, SDesc t.2) (hB : ∀ t ∈ B, SDesc t.2)
    (h : SQOperator.op A = SQOperator.op B) (s : Key) : coefS A s = coefS B s := by
  classical
  let N : SQOperator := A ++ B.map fun t => (-t.1, t.2)
  have hsum : ∀ {M : Type} [AddCommGroup M] [Module ℂ M] (f : Key → M), (N.map fun t => t.1 • f t.2).sum =
      (A.map fun t => t.1 • f t.2).sum - (B.map fun t => t.1 • f t.2).sum := by
    intro M _ _ f
    have : ∀ B : SQOperator, ((B.map fun t => ((-t.1, t.2) : SQTerm)).map fun t => t.1 • f t.2).sum = -(B.map fun t => t.1 • f t.2).sum := by
      intro B
      induction B with
      | nil => simp
      | cons t B ih => simp only [List.map_cons, List.sum_cons, ih, neg_smul, neg_add]
    show ((A ++ B.map fun t => ((-t.1, t.2) : SQTerm)).map fun t => t.1 • f t.2).sum = _
    rw [List.map_append, List.sum_append, this, sub_eq_add_neg]
  have hz := sq_independent false ((SQOperator.buildMap N).map fun e => (e.2, e.1)) (by
      intro t ht
      obtain ⟨e, he, rfl⟩ := List.mem_map.1 ht
      have : e.1 ∈ N.map Prod.snd := ((SQOperator.buildMap_facts N).2.1 e.1).1 (List.mem_map_of_mem he)
      obtain ⟨u, hu, eu⟩ := List.mem_map.1 this
      show SDesc e.1
      rw [← eu]
      rcases List.mem_append.1 hu with h | h
      · exact hA u h
      · obtain ⟨w, hw, rfl⟩ := List.mem_map.1 h; exact hB w hw) (by
      rw [List.map_map]; exact buildMap_nodup N) (by
      rw [List.map_map]
      have := (SQOperator.buildMap_facts N).2.2 (fun k => ladString false k)
      rw [hsum (fun k => ladString false k)] at this
      refine Eq.trans this ?_
      have e1 : (A.map fun t => t.1 • ladString false t.2).sum = SQOperator.op A := rfl
      have e2 : (B.map fun t => t.1 • ladString false t.2).sum = SQOperator.op B := rfl
      rw [e1, e2, h, sub_self])
  have h1 := hsum (fun k => if k = s then (1 : ℂ) else 0)
  have h2 := (SQOperator.buildMap_facts N).2.2 (fun k => if k = s then (1 : ℂ) else 0)
  have h3 : ((SQOperator.buildMap N).map fun e => e.2 • if e.1 = s then (1 : ℂ) else 0).sum = 0 := by
    apply List.sum_eq_zero
    intro z hz'
    obtain ⟨e, he, rfl⟩ := List.mem_map.1 hz'
    have : e.2 = 0 := hz (e.2, e.1) (List.mem_map.2 ⟨e, he, rfl⟩)
    rw [this, zero_smul]
  have h4 : coefS A s - coefS B s = 0 := by
    unfold coefS
    rw [← h1, ← h2, h3]
  exact sub_eq_zero.1 h4

theorem coefS_not_mem {A : SQOperator} {s : Key} (h : s ∉ A.map Prod.snd) : coefS A s = 0 := by
  classical
  unfold coefS
  apply List.sum_eq_zero
  intro z hz
  obtain ⟨t, ht, rfl⟩ := List.mem_map.1 hz
  rw [if_neg, smul_zero]
  intro e; exact h (e ▸ List.mem_map_of_mem ht)

theorem canonStep_sdesc {A A' : SQOperator} (hd : A.Distinct) (h : List.Forall₂ CanonStep A A') : ∀ t ∈ A', SDesc t.2 := by
  intro t ht
  obtain ⟨w, hw, hs⟩ := forall2_mem_right h ht
  have n1 : t.2.1.Nodup := hs.cre.nodup_iff.2 (hd w hw).1
  have n2 : t.2.2.Nodup := hs.ann.nodup_iff.2 (hd w hw).2
  constructor
  · exact (hs.desc.1.and (List.nodup_iff_pairwise_ne.1 n1)).imp (fun h => lt_of_le_of_ne h.1 (Ne.symm h.2))
  · exact (hs.desc.2.and (List.nodup_iff_pairwise_ne.1 n2)).imp (fun h => lt_of_le_of_ne h.1 (Ne.symm h.2))

/-- C35: when no term repeats a creation or annihilation index, `simplify` is a normal form: two operators that are the
same linear operator simplify to the same list of terms, whatever the sorting algorithm does. -/
theorem C35_normal_form (o o' : DescSort) (A B : SQOperator) (hA : A.Distinct) (hB : B.Distinct) (h : SQOperator.op A = SQOperator.op B) :
    simplify o A = simplify o' B := by
  obtain ⟨A', eA, sA⟩ := SQOperator.canonicalOrder_ok o A
  obtain ⟨B', eB, sB⟩ := SQOperator.canonicalOrder_ok o' B
  rw [simplify_eq o A A' eA, simplify_eq o' B B' eB]
  congr 2
  have hc : ∀ s, coefS A' s = coefS B' s := fun s => coefS_determined (canonStep_sdesc hA sA) (canonStep_sdesc hB sB)
    (by rw [canonStep_sum sA, canonStep_sum sB, h]) s
  have key : ∀ {A' B' : SQOperator}, (∀ s, coefS A' s = coefS B' s) → ∀ e,
      e ∈ (SQOperator.buildMap A').filter (fun e => decide (‖e.2‖ > 1e-12)) → e ∈ (SQOperator.buildMap B').filter (fun e => decide (‖e.2‖ > 1e-12)) := by
    intro A' B' hc e he
    obtain ⟨h1, h2⟩ := List.mem_filter.1 he
    refine List.mem_filter.2 ⟨?_, h2⟩
    have hv := buildMap_value h1
    have hm : e.1 ∈ (SQOperator.buildMap B').map Prod.fst := by
      rw [(SQOperator.buildMap_facts B').2.1]
      by_contra hn
      rw [hc, coefS_not_mem hn] at hv
      rw [hv] at h2
      simp at h2
      norm_num at h2
    obtain ⟨e', he', ee⟩ := List.mem_map.1 hm
    have hv' := buildMap_value he'
    have : e' = e := Prod.ext ee (by rw [hv', hv, hc, ee])
    rw [← this]; exact he'
  have nd : ∀ A' : SQOperator, ((SQOperator.buildMap A').filter (fun e => decide (‖e.2‖ > 1e-12))).Nodup :=
    fun A' => (List.Nodup.of_map _ (buildMap_nodup A')).filter _
  have hp : ((SQOperator.buildMap A').filter (fun e => decide (‖e.2‖ > 1e-12))).Perm ((SQOperator.buildMap B').filter (fun e => decide (‖e.2‖ > 1e-12))) := by
    rw [List.perm_ext_iff_of_nodup (nd A') (nd B')]
    intro e
    exact ⟨key hc e, key (fun s => (hc s).symm) e⟩
  exact List.Perm.eq_of_pairwise (fun a b _ _ h1 h2 => absurd (klt_trans h1 h2) (klt_irrefl _))
    ((SQOperator.buildMap_facts A').1.filter _) ((SQOperator.buildMap_facts B').1.filter _) hp

/-- the order `std::sort` gives equal elements does not matter when indices are distinct -/
theorem C35_sort_independent (o o' : DescSort) (A : SQOperator) (hA : A.Distinct) : simplify o A = simplify o' A :=
  C35_normal_form o o' A A hA hA rfl

theorem C35_example : SQOperator.Distinct [(0.5, [2, 3], [1, 0]), (0.25, [3, 2], [1, 0])] := by
  intro t ht
  simp only [List.mem_cons, List.not_mem_nil, or_false] at ht
  rcases ht with rfl | rfl <;> simp

/-- C35: the methods that only touch coefficients or append terms -/
theorem C35_edit (A B : SQOperator) (z : ℂ) (cre ann : List ℕ) :
    SQOperator.op (A.addTerm z cre ann) = SQOperator.op A + z • fermiString cre ann ∧
    SQOperator.op (A.addOp B) = SQOperator.op A + SQOperator.op B ∧
    SQOperator.op (A.multCoeffs z) = z • SQOperator.op A := by
  refine ⟨by simp [SQOperator.op, SQOperator.addTerm], by simp [SQOperator.op, SQOperator.addOp], ?_⟩
  unfold SQOperator.op SQOperator.multCoeffs
  induction A with
  | nil => simp
  | cons t A ih => simp only [List.map_cons, List.sum_cons, smul_add, smul_smul]; rw [ih, mul_comm z]

/-- C35: `set_coeffs` replaces exactly the coefficients, and raises when the number of coefficients is wrong. -/
theorem C35_set_coeffs (A : SQOperator) (zs : List ℂ) :
    (zs.length = A.length → ∃ A', A.setCoeffs zs = .ok A' ∧ A'.map Prod.fst = zs ∧ A'.map Prod.snd = A.map Prod.snd) ∧
    (zs.length ≠ A.length → A.setCoeffs zs = .error .invalidArgument) := by
  refine ⟨fun h => ⟨List.zipWith (fun z t => (z, t.2)) zs A, ?_, ?_, ?_⟩, fun h => ?_⟩
  · unfold SQOperator.setCoeffs; rw [if_neg (by simp [h])]
  · apply List.ext_getElem <;> simp [h]
  · apply List.ext_getElem <;> simp [h]
  · unfold SQOperator.setCoeffs; rw [if_pos h]

end QF
