import Verif.Props.JW

/-!
The result of `simplify`, when the operator is known.
-/
namespace QF
open SQOperator

/-- `simplify` returns `T` if `T` is the same operator in normal form: descending strings, sorted, no small coefficient -/
theorem simplify_target (o : DescSort) (A T : SQOperator) (hA : A.Distinct) (hT : ∀ t ∈ T, SDesc t.2)
    (hs : T.Pairwise fun a b => klt a.2 b.2 = true) (hc : ∀ t ∈ T, 1e-12 < ‖t.1‖) (h : SQOperator.op T = SQOperator.op A) :
    simplify o A = .ok T := by
  classical
  obtain ⟨A', eA, sA⟩ := SQOperator.canonicalOrder_ok o A
  rw [simplify_eq o A A' eA]
  have hcf : ∀ s, coefS A' s = coefS T s := fun s => coefS_determined (canonStep_sdesc hA sA) hT
    (by rw [canonStep_sum sA, h]) s
  have hnd : (T.map Prod.snd).Nodup := by
    rw [List.nodup_iff_pairwise_ne, List.pairwise_map]
    exact hs.imp (by intro a b h e; exact klt_irrefl b.2 (e ▸ h))
  have hv : ∀ t ∈ T, coefS T t.2 = t.1 := by
    intro t ht
    have hn : ((T.map fun t => ((t.2, t.1) : Key × ℂ)).map Prod.fst).Nodup := by rw [List.map_map]; exact hnd
    have := map_entry hn (e := (t.2, t.1)) (List.mem_map.2 ⟨t, ht, rfl⟩)
    rw [List.map_map] at this
    exact this
  have hp : ((SQOperator.buildMap A').filter (fun e => decide (‖e.2‖ > 1e-12))).Perm (T.map fun t => (t.2, t.1)) := by
    rw [List.perm_ext_iff_of_nodup ((List.Nodup.of_map _ (buildMap_nodup A')).filter _)
      (List.Nodup.of_map Prod.fst (by rw [List.map_map]; exact hnd))]
    intro e
    rw [List.mem_filter, List.mem_map]
    constructor
    · rintro ⟨h1, h2⟩
      have h3 := buildMap_value h1
      have hm : e.1 ∈ T.map Prod.snd := by
        by_contra hn
        rw [hcf, coefS_not_mem hn] at h3
        rw [h3] at h2
        simp at h2
        norm_num at h2
      obtain ⟨t, ht, et⟩ := List.mem_map.1 hm
      exact ⟨t, ht, Prod.ext et (by rw [h3, hcf, ← et, hv t ht])⟩
    · rintro ⟨t, ht, rfl⟩
      have hm : t.2 ∈ (SQOperator.buildMap A').map Prod.fst := by
        rw [(SQOperator.buildMap_facts A').2.1]
        by_contra hn
        have := hcf t.2
        rw [coefS_not_mem hn, hv t ht] at this
        have := hc t ht
        rw [← ‹0 = t.1›, norm_zero] at this
        norm_num at this
      obtain ⟨e, he, ee⟩ := List.mem_map.1 hm
      have h3 := buildMap_value he
      have : e = (t.2, t.1) := Prod.ext ee (by rw [h3, hcf, ee, hv t ht])
      rw [← this]
      refine ⟨he, ?_⟩
      rw [this]
      simpa using hc t ht
  have := List.Perm.eq_of_pairwise (le := fun a b : Key × ℂ => klt a.1 b.1 = true) (fun a b _ _ h1 h2 => absurd (klt_trans h1 h2) (klt_irrefl _))
    ((SQOperator.buildMap_facts A').1.filter _) (by rw [List.pairwise_map]; exact hs) hp
  rw [this, List.map_map]
  show Except.ok (List.map id T) = _
  rw [List.map_id]

/-! ### reversing a string -/

theorem ladder_through (b : Bool) (p : ℕ) : ∀ (l : List ℕ), p ∉ l →
    (l.map (ladder b)).prod * ladder b p = ((-1 : ℂ) ^ l.length) • (ladder b p * (l.map (ladder b)).prod) := by
  intro l
  induction l with
  | nil => intro _; simp
  | cons q l ih =>
    intro h
    have hq : q ≠ p := fun e => h (e ▸ List.mem_cons_self)
    rw [List.map_cons, List.prod_cons, mul_assoc, ih (fun h' => h (List.mem_cons_of_mem _ h')), mul_smul_comm, ← mul_assoc]
    have := ladder_anticomm_ne b b hq
    rw [this, List.length_cons, pow_succ, mul_smul]
    congr 1
    have g : ∀ {R : Type} [Ring R] [Algebra ℂ R] (x y z : R), -(x * y) * z = (-1 : ℂ) • (x * (y * z)) := by
      intro R _ _ x y z; rw [neg_mul, neg_one_smul, mul_assoc]
    exact g _ _ _

theorem reverse_prod (b : Bool) : ∀ (l : List ℕ), l.Nodup →
    (l.reverse.map (ladder b)).prod = ((-1 : ℂ) ^ (l.length.choose 2)) • (l.map (ladder b)).prod := by
  intro l
  induction l with
  | nil => intro _; simp
  | cons p l ih =>
    intro h
    rw [List.nodup_cons] at h
    rw [List.reverse_cons, List.map_append, List.prod_append, ih h.2, List.map_cons, List.map_nil, List.prod_singleton, smul_mul_assoc,
      ladder_through b p l h.1, smul_smul, List.map_cons, List.prod_cons, List.length_cons, Nat.choose_succ_succ, Nat.choose_one_right, pow_add, mul_comm]

/-- reversing both parts of a string that creates as many particles as it annihilates changes nothing -/
theorem fermiString_reverse {c a : List ℕ} (hc : c.Nodup) (ha : a.Nodup) (h : c.length = a.length) :
    fermiString c.reverse a.reverse = fermiString c a := by
  unfold fermiString
  rw [reverse_prod true c hc, reverse_prod false a ha, smul_mul_assoc, mul_smul_comm, smul_smul, h, ← mul_pow]
  norm_num

/-- the anti-Hermitian excitation operator as the library stores it: two terms, in the order of the index lists -/
noncomputable def excTerms (c a : List ℕ) : SQOperator := if klt (c, a) (a, c) then [(1, c, a), (-1, a, c)] else [(-1, a, c), (1, c, a)]

theorem op_sub₁ (A B : Op) : A + (-1 : ℂ) • B = A - B := by apply Op.ext'; intro ψ I; simp; ring
theorem op_sub₂ (A B : Op) : (-1 : ℂ) • B + A = A - B := by apply Op.ext'; intro ψ I; simp; ring

theorem excTerms_op (c a : List ℕ) : SQOperator.op (excTerms c a) = fermiString c a - fermiString a c := by
  unfold excTerms SQOperator.op
  split <;> simp only [List.map_cons, List.map_nil, List.sum_cons, List.sum_nil, one_smul, add_zero]
  · exact op_sub₁ _ _
  · exact op_sub₂ _ _

theorem simplify_exc (o : DescSort) (A : SQOperator) {c a : List ℕ} (hA : A.Distinct) (hc : c.Pairwise fun p q => q < p) (ha : a.Pairwise fun p q => q < p)
    (hne : c ≠ a) (h : SQOperator.op A = fermiString c a - fermiString a c) : simplify o A = .ok (excTerms c a) := by
  apply simplify_target o A _ hA
  · intro t ht
    unfold excTerms at ht
    split at ht <;> simp only [List.mem_cons, List.not_mem_nil, or_false] at ht <;> rcases ht with rfl | rfl <;> first | exact ⟨hc, ha⟩ | exact ⟨ha, hc⟩
  · unfold excTerms
    split
    · simpa using ‹_›
    · rename_i hk
      simp only [List.pairwise_cons, List.mem_cons, List.not_mem_nil, or_false, forall_eq, List.Pairwise.nil, and_true, IsEmpty.forall_iff, implies_true]
      by_contra hk'
      have := klt_eq hk hk'
      exact hne (Prod.ext_iff.1 this).1
  · intro t ht
    unfold excTerms at ht
    split at ht <;> simp only [List.mem_cons, List.not_mem_nil, or_false] at ht <;> rcases ht with rfl | rfl <;> norm_num
  · rw [excTerms_op, h]

end QF
