import Verif.Lemmas.SQNormal
import Verif.Lemmas.BitString
import Verif.Lemmas.Excite
import Verif.Props.StatePrep
import Verif.Props.SQPool

/-!
C48 (symmetries of the particle-hole pools), C49 (their contents).
-/
namespace QF
namespace SQOpPool
open SQOperator

/-! ### holes and particles -/

theorem mem_holes {n r d p : ℕ} : p ∈ holes n r d ↔ p < n ∧ r.testBit p = true ∧ d.testBit p = false := by
  unfold holes; simp [List.mem_filter]

theorem holes_desc (n r d : ℕ) : (holes n r d).Pairwise fun p q => q < p := by
  unfold holes
  apply List.Pairwise.filter
  rw [List.pairwise_reverse]
  exact List.pairwise_lt_range

theorem holes_nodup (n r d : ℕ) : (holes n r d).Nodup := (holes_desc n r d).imp (fun h => Nat.ne_of_gt h)

theorem range_reverse (n : ℕ) : (List.range n).reverse = (List.range n).map fun i => n - i - 1 := by
  apply List.ext_getElem
  · simp
  · intro i h1 h2
    simp only [List.getElem_reverse, List.getElem_range, List.getElem_map, List.length_range]
    omega

theorem excitIdx_occ (n r d : ℕ) : excitIdx n (bitStr n (r ^^^ d)) (bitStr n r) true = holes n r d := by
  unfold excitIdx holes
  rw [bitStr_length, range_reverse, List.filter_map]
  congr 1
  apply List.filter_congr
  intro i hi
  have := List.mem_range.1 hi
  rw [bitStr_getD this, bitStr_getD this, Nat.testBit_xor]
  simp only [Function.comp]
  rw [show n - 1 - i = n - i - 1 by omega]
  cases r.testBit (n - i - 1) <;> cases d.testBit (n - i - 1) <;> rfl

theorem excitIdx_vir (n r d : ℕ) : excitIdx n (bitStr n (r ^^^ d)) (bitStr n r) false = holes n d r := by
  unfold excitIdx holes
  rw [bitStr_length, range_reverse, List.filter_map]
  congr 1
  apply List.filter_congr
  intro i hi
  have := List.mem_range.1 hi
  rw [bitStr_getD this, bitStr_getD this, Nat.testBit_xor]
  simp only [Function.comp]
  rw [show n - 1 - i = n - i - 1 by omega]
  cases r.testBit (n - i - 1) <;> cases d.testBit (n - i - 1) <;> rfl

/-- sum over the orbitals only in `r`, minus over those only in `d` -/
theorem holes_sum (w : ℕ → ℂ) (n r d : ℕ) : ((holes n r d).map w).sum - ((holes n d r).map w).sum =
    (∑ p ∈ Finset.range n, if r.testBit p then w p else 0) - ∑ p ∈ Finset.range n, if d.testBit p then w p else 0 := by
  have hs : ∀ r d, ((holes n r d).map w).sum = ∑ p ∈ Finset.range n, if (r.testBit p && !d.testBit p) then w p else 0 := by
    intro r d
    induction n with
    | zero => simp [holes]
    | succ n ih =>
      unfold holes at ih ⊢
      rw [List.range_succ, List.reverse_append, List.reverse_singleton, List.singleton_append, Finset.sum_range_succ, ← ih, List.filter_cons]
      split <;> simp_all [add_comm]
  rw [hs, hs, ← Finset.sum_sub_distrib, ← Finset.sum_sub_distrib]
  apply Finset.sum_congr rfl
  intro p _
  cases r.testBit p <;> cases d.testBit p <;> simp

theorem spin_sum (w : ℕ → ℂ) (a b : ℂ) (hw : ∀ p, w p = if p % 2 = 0 then a else b) (k d : ℕ) :
    (∑ p ∈ Finset.range (2 * k), if d.testBit p then w p else 0) = spinNum 0 k d * a + spinNum 1 k d * b := by
  induction k with
  | zero => simp [spinNum]
  | succ k ih =>
    rw [show 2 * (k + 1) = 2 * k + 1 + 1 by ring, Finset.sum_range_succ, Finset.sum_range_succ, ih, spinNum, spinNum, spinNum, spinNum, List.range_succ,
      List.countP_append, List.countP_append, hw, hw, if_pos (show 2 * k % 2 = 0 by omega), if_neg (show ¬ (2 * k + 1) % 2 = 0 by omega)]
    cases h0 : d.testBit (2 * k) <;> cases h1 : d.testBit (2 * k + 1) <;> simp [h0, h1] <;> ring

/-- equal numbers of alpha and of beta electrons: any charge that depends only on the spin is the same -/
theorem sameSpin_sum {k r d : ℕ} (h : SameSpin k r d) (a b : ℂ) :
    ((holes (2 * k) r d).map fun p => if p % 2 = 0 then a else b).sum = ((holes (2 * k) d r).map fun p => if p % 2 = 0 then a else b).sum := by
  rw [← sub_eq_zero, holes_sum, spin_sum _ a b (fun _ => rfl), spin_sum _ a b (fun _ => rfl), h.1, h.2, sub_self]

theorem sameSpin_length {k r d : ℕ} (h : SameSpin k r d) : (holes (2 * k) r d).length = (holes (2 * k) d r).length := by
  have := sameSpin_sum h 1 1
  simp only [ite_self, List.map_const', List.sum_replicate, nsmul_eq_mul, mul_one] at this
  exact_mod_cast this

theorem countP_split {α : Type*} (P Q R : α → Bool) (l : List α) (h : ∀ x ∈ l, P x = (Q x || R x) ∧ (Q x && R x) = false) :
    l.countP P = l.countP Q + l.countP R := by
  induction l with
  | nil => rfl
  | cons x l ih =>
    obtain ⟨h1, h2⟩ := h x List.mem_cons_self
    rw [List.countP_cons, List.countP_cons, List.countP_cons, ih (fun y hy => h y (List.mem_cons_of_mem _ hy)), h1]
    cases hq : Q x <;> cases hr : R x <;> simp_all <;> omega

theorem excit_count (n r d : ℕ) : (bitStr n (r ^^^ d)).countP id = (holes n r d).length + (holes n d r).length := by
  rw [holes, holes, ← List.countP_eq_length_filter, ← List.countP_eq_length_filter, List.countP_reverse, List.countP_reverse,
    ← countP_split (fun p => (r ^^^ d).testBit p), ← List.countP_reverse (l := List.range n), range_reverse, bitStr, List.countP_map, List.countP_map]
  · apply List.countP_congr
    intro i _
    simp only [Function.comp, id, show n - 1 - i = n - i - 1 by omega]
  · intro p _
    rw [Nat.testBit_xor]
    cases r.testBit p <;> cases d.testBit p <;> simp

/-! ### one determinant -/

instance (k r : ℕ) (irr : List ℕ) (max d : ℕ) : Decidable (Allowed k r irr max d) := by unfold Allowed SameSpin; infer_instance

/-- the pool element of determinant `d` -/
noncomputable def excOf (k r d : ℕ) : ℂ × SQOperator := (1, excTerms (holes (2 * k) d r) (holes (2 * k) r d))

theorem detStep_spec (o : DescSort) (max k : ℕ) (P : SQOpPool) (hn : P.nSpinorb = 2 * k) (hi : k ≤ P.orbIrreps.length) (d : ℕ) (hs : SameSpin k P.refInt d) :
    detStep o max (bitStr P.nSpinorb P.refInt) P d =
      .ok (if Allowed k P.refInt P.orbIrreps max d then { P with terms := P.terms ++ [excOf k P.refInt d] } else P) := by
  have hl := sameSpin_length hs
  unfold detStep
  simp only [excit_count, excitIdx_occ, excitIdx_vir, hn]
  rw [← hl]
  rw [if_neg (show ¬ ((holes (2 * k) P.refInt d).length + (holes (2 * k) P.refInt d).length) % 2 ≠ 0 by omega),
    show ((holes (2 * k) P.refInt d).length + (holes (2 * k) P.refInt d).length) / 2 = (holes (2 * k) P.refInt d).length by omega]
  by_cases hr : (holes (2 * k) P.refInt d).length ≠ 0 ∧ (holes (2 * k) P.refInt d).length ≤ max
  · rw [if_pos hr]
    have hv : findIrrep P.orbIrreps (holes (2 * k) P.refInt d ++ holes (2 * k) d P.refInt) =
        .ok (irrepOf P.orbIrreps (holes (2 * k) P.refInt d ++ holes (2 * k) d P.refInt)) := by
      apply C45_value
      intro i hm
      rw [List.mem_append, mem_holes, mem_holes] at hm
      omega
    rw [hv, except_ok_bind]
    by_cases hz : irrepOf P.orbIrreps (holes (2 * k) P.refInt d ++ holes (2 * k) d P.refInt) = 0
    · rw [if_pos hz, if_pos ⟨hs, by omega, hr.2, hz⟩]
      have hne : holes (2 * k) d P.refInt ≠ holes (2 * k) P.refInt d := by
        intro e
        obtain ⟨p, hp⟩ := List.exists_mem_of_length_pos (Nat.pos_of_ne_zero hr.1)
        have h1 := mem_holes.1 hp
        rw [← e] at hp
        have h2 := mem_holes.1 hp
        rw [h1.2.1] at h2
        exact absurd h2.2.2 (by simp)
      rw [simplify_exc o _ ?_ (holes_desc _ _ _) (holes_desc _ _ _) hne ?_]
      · simp only [except_ok_bind, pure, Except.pure, addTerm, excOf, hn]
      · intro t ht
        simp only [addTerm, SQOperator.addTerm, List.nil_append, List.mem_append, List.mem_singleton] at ht
        rcases ht with rfl | rfl
        · exact ⟨holes_nodup _ _ _, holes_nodup _ _ _⟩
        · exact ⟨List.nodup_reverse.2 (holes_nodup _ _ _), List.nodup_reverse.2 (holes_nodup _ _ _)⟩
      · simp only [SQOperator.op, SQOperator.addTerm, List.nil_append, List.map_append, List.map_cons, List.map_nil, List.sum_append, List.sum_cons, List.sum_nil, add_zero, one_smul]
        rw [fermiString_reverse (holes_nodup _ _ _) (holes_nodup _ _ _) hl]
        exact op_sub₁ _ _
    · rw [if_neg hz, if_neg (fun h => hz h.2.2.2)]; rfl
  · rw [if_neg hr, if_neg (fun h => hr ⟨by have := h.2.1; omega, h.2.2.1⟩)]; rfl

theorem detStep_fold (o : DescSort) (max k : ℕ) (dets : List ℕ) : ∀ (P : SQOpPool), P.nSpinorb = 2 * k → k ≤ P.orbIrreps.length →
    (∀ d ∈ dets, SameSpin k P.refInt d) → ∀ s, s = bitStr P.nSpinorb P.refInt →
    dets.foldlM (detStep o max s) P = .ok { P with terms := P.terms ++ (dets.filter fun d => decide (Allowed k P.refInt P.orbIrreps max d)).map (excOf k P.refInt) } := by
  induction dets with
  | nil => intro P _ _ _ s _; simp [pure, Except.pure]
  | cons d dets ih =>
    intro P hn hi hd s hs
    rw [List.foldlM_cons, hs, detStep_spec o max k P hn hi d (hd d List.mem_cons_self), except_ok_bind]
    by_cases ha : Allowed k P.refInt P.orbIrreps max d
    · rw [if_pos ha, ih { P with terms := P.terms ++ [excOf k P.refInt d] } hn hi (fun e he => hd e (List.mem_cons_of_mem _ he)) _ rfl,
        List.filter_cons_of_pos (by simpa using ha)]
      simp
    · rw [if_neg ha, ih P hn hi (fun e he => hd e (List.mem_cons_of_mem _ he)) _ rfl, List.filter_cons_of_neg (by simpa using ha)]

/-! ### all determinants -/

theorem detsInt_spec {k : ℕ} {A B : List (List Bool)} (hA : A.Nodup) (hB : B.Nodup) (lA : ∀ a ∈ A, a.length = k) (lB : ∀ b ∈ B, b.length = k) :
    detsInt A B = (List.range (2 ^ (2 * k))).filter fun d => decide (spinStr 0 k d ∈ A ∧ spinStr 1 k d ∈ B) := by
  have hmem : ∀ d, d ∈ (A.flatMap fun a => B.map fun b => ofBitStr (interleave a b)) ↔ d < 2 ^ (2 * k) ∧ spinStr 0 k d ∈ A ∧ spinStr 1 k d ∈ B := by
    intro d
    simp only [List.mem_flatMap, List.mem_map]
    constructor
    · rintro ⟨a, ha, b, hb, rfl⟩
      obtain ⟨h1, h2⟩ := interleave_spin a b (by rw [lA a ha, lB b hb])
      rw [lA a ha] at h1 h2
      refine ⟨?_, by rw [h1]; exact ha, by rw [h2]; exact hb⟩
      have := ofBitStr_lt (interleave a b)
      rwa [interleave_length, lA a ha] at this
    · rintro ⟨h1, h2, h3⟩
      exact ⟨_, h2, _, h3, interleave_inv h1⟩
  have hnd : (A.flatMap fun a => B.map fun b => ofBitStr (interleave a b)).Nodup := by
    have inj : ∀ a ∈ A, ∀ b ∈ B, ∀ a' ∈ A, ∀ b' ∈ B, ofBitStr (interleave a b) = ofBitStr (interleave a' b') → a = a' ∧ b = b' := by
      intro a ha b hb a' ha' b' hb' e
      obtain ⟨h1, h2⟩ := interleave_spin a b (by rw [lA a ha, lB b hb])
      obtain ⟨h3, h4⟩ := interleave_spin a' b' (by rw [lA a' ha', lB b' hb'])
      rw [lA a ha] at h1 h2; rw [lA a' ha'] at h3 h4
      exact ⟨by rw [← h1, e, h3], by rw [← h2, e, h4]⟩
    rw [List.nodup_flatMap]
    constructor
    · intro a ha
      rw [List.nodup_map_iff_inj_on hB]
      intro b hb b' hb' e
      exact (inj a ha b hb a ha b' hb' e).2
    · apply List.Pairwise.imp_of_mem _ (List.nodup_iff_pairwise_ne.1 hA)
      intro a a' ha ha' hne
      show List.Disjoint _ _
      intro x hx hx'
      obtain ⟨b, hb, rfl⟩ := List.mem_map.1 hx
      obtain ⟨b', hb', e⟩ := List.mem_map.1 hx'
      exact hne (inj a ha b hb a' ha' b' hb' e.symm).1
  unfold detsInt
  have p1 := List.mergeSort_perm (A.flatMap fun a => B.map fun b => ofBitStr (interleave a b)) (fun x y => decide (x ≤ y))
  apply List.Perm.eq_of_pairwise (le := fun x y : ℕ => x ≤ y) (fun a b _ _ h1 h2 => le_antisymm h1 h2)
  · have := List.pairwise_mergeSort (le := fun x y : ℕ => decide (x ≤ y)) (by intro a b c; simp; omega) (by intro a b; simp; omega)
      (A.flatMap fun a => B.map fun b => ofBitStr (interleave a b))
    simpa using this
  · exact (List.pairwise_le_range).filter _
  · rw [List.perm_ext_iff_of_nodup (p1.nodup_iff.2 hnd) (List.nodup_range.filter _)]
    intro d
    rw [p1.mem_iff, hmem, List.mem_filter, List.mem_range, decide_eq_true_iff]

/-- C49: what the pool contains, for every reference, orbital symmetry and maximal rank.  The operators of the pool, in
order, belong to the determinants that are allowed and in which neither the alpha nor the beta occupation, read as a number, is
below that of the reference.  Each is stored with coefficient 1 as the two terms `∏ particles† ∏ holes` and minus its adjoint. -/
theorem C49_contents (N : NextPerm) (o : DescSort) (P : SQOpPool) (k max : ℕ) (hn : P.nSpinorb = 2 * k) (hk : k ≤ 32) (hi : k ≤ P.orbIrreps.length) :
    ∃ N₀, ∀ fuel, N₀ ≤ fuel → fillParticleHole N o fuel P max = .ok
      { P with
        terms := P.terms ++ ((List.range (2 ^ (2 * k))).filter fun d => decide (spinVal 0 k P.refInt ≤ spinVal 0 k d ∧ spinVal 1 k P.refInt ≤ spinVal 1 k d ∧
        Allowed k P.refInt P.orbIrreps max d)).map (fun d => (1, excTerms (holes (2 * k) d P.refInt) (holes (2 * k) P.refInt d))) } := by
  refine ⟨Nat.max ((above (spinStr 0 k P.refInt)).card + 1) ((above (spinStr 1 k P.refInt)).card + 1), ?_⟩
  intro fuel hf
  obtain ⟨A, eA, sA, mA⟩ := permsFrom_ok N _ (spinStr 0 k P.refInt) (Nat.lt_succ_self _) fuel (le_trans (Nat.le_max_left _ _) hf)
  obtain ⟨B, eB, sB, mB⟩ := permsFrom_ok N _ (spinStr 1 k P.refInt) (Nat.lt_succ_self _) fuel (le_trans (Nat.le_max_right _ _) hf)
  unfold fillParticleHole
  rw [if_neg (by omega)]
  simp only [hn, splitAlpha_eq, splitBeta_eq, eA, eB, except_ok_bind]
  have mem : ∀ σ d, ((spinStr σ k d).Perm (spinStr σ k P.refInt) ∧ spinStr σ k P.refInt ≤ spinStr σ k d) ↔
      spinNum σ k P.refInt = spinNum σ k d ∧ spinVal σ k P.refInt ≤ spinVal σ k d := by
    intro σ d
    rw [perm_bool, ofBitStr_le_iff (by rw [spinStr_length, spinStr_length]), spinStr_val, spinStr_val, spinStr_count, spinStr_count, spinStr_length, spinStr_length]
    constructor
    · rintro ⟨⟨_, h⟩, h'⟩; exact ⟨h.symm, h'⟩
    · rintro ⟨h, h'⟩; exact ⟨⟨rfl, h.symm⟩, h'⟩
  rw [detsInt_spec (k := k) (sA.imp (fun h => ne_of_lt h)) (sB.imp (fun h => ne_of_lt h))
    (fun a ha => by have := ((mA a).1 ha).1.length_eq; rwa [spinStr_length] at this) (fun b hb => by have := ((mB b).1 hb).1.length_eq; rwa [spinStr_length] at this)]
  rw [detStep_fold o max k _ P hn hi ?_ _ (by rw [hn]), List.filter_filter]
  · congr 4
    apply List.filter_congr
    intro d _
    rw [← Bool.decide_and]
    apply decide_eq_decide.2
    rw [mA, mB, mem, mem]
    constructor
    · rintro ⟨h1, h2, h3⟩; exact ⟨h2.2, h3.2, h1⟩
    · rintro ⟨h1, h2, h3⟩; exact ⟨h3, ⟨h3.1.1, h1⟩, h3.1.2, h2⟩
  · intro d hd
    have := (List.mem_filter.1 hd).2
    rw [decide_eq_true_iff, mA, mB, mem, mem] at this
    exact ⟨this.1.1, this.2.1⟩

theorem adj_exc {n : ℕ} {c a : List ℕ} (hc : ∀ p ∈ c, p < n) (ha : ∀ p ∈ a, p < n) (nc : c.Nodup) (na : a.Nodup) (h : c.length = a.length) :
    AntiHermitian n (fermiString c a - fermiString a c) := by
  rw [← fermiString_reverse na nc h.symm]
  exact (IsAdj.fermiString hc ha).antiHermitian

/-- C48: whatever the reference, every operator a particle-hole pool adds is `E - E†` for a string `E` that moves between one
and `max` electrons, is anti-Hermitian, conserves the particle number and the spin projection and is totally symmetric. -/
theorem C48_pool_symmetries (N : NextPerm) (o : DescSort) (P : SQOpPool) (k max : ℕ) (hn : P.nSpinorb = 2 * k) (hk : k ≤ 32) (hi : k ≤ P.orbIrreps.length) :
    ∃ N₀, ∀ fuel, N₀ ≤ fuel → ∃ new, fillParticleHole N o fuel P max = .ok { P with terms := P.terms ++ new } ∧
      ∀ t ∈ new, t.1 = 1 ∧ AntiHermitian (2 * k) t.2.op ∧ Commute (NumOp (2 * k)) t.2.op ∧ Commute (SpinZ (2 * k)) t.2.op ∧
        ∃ c a : List ℕ, t.2.op = fermiString c a - fermiString a c ∧ c.length = a.length ∧ 1 ≤ c.length ∧ c.length ≤ max ∧
          (∀ p ∈ a, P.refInt.testBit p = true ∧ p < 2 * k) ∧ (∀ p ∈ c, P.refInt.testBit p = false ∧ p < 2 * k) ∧ c.Nodup ∧ a.Nodup ∧
          irrepOf P.orbIrreps (a ++ c) = 0 := by
  obtain ⟨N₀, h⟩ := C49_contents N o P k max hn hk hi
  refine ⟨N₀, fun fuel hf => ⟨_, h fuel hf, ?_⟩⟩
  intro t ht
  obtain ⟨d, hd, rfl⟩ := List.mem_map.1 ht
  obtain ⟨hd, hp⟩ := List.mem_filter.1 hd
  obtain ⟨-, -, hs, h1, h2, hz⟩ := of_decide_eq_true hp
  have hc : ∀ p ∈ holes (2 * k) d P.refInt, p < 2 * k := fun p hp => (mem_holes.1 hp).1
  have ha : ∀ p ∈ holes (2 * k) P.refInt d, p < 2 * k := fun p hp => (mem_holes.1 hp).1
  have hl := sameSpin_length hs
  have comm : ∀ w : ℕ → ℂ, ((holes (2 * k) P.refInt d).map w).sum = ((holes (2 * k) d P.refInt).map w).sum →
      Commute (chargeOp w (2 * k)) (SQOperator.op (excTerms (holes (2 * k) d P.refInt) (holes (2 * k) P.refInt d))) := by
    intro w e
    rw [excTerms_op]
    exact (charge_commute w hc ha e.symm).sub_right (charge_commute w ha hc e)
  refine ⟨rfl, ?_, ?_, ?_, holes (2 * k) d P.refInt, holes (2 * k) P.refInt d, excTerms_op _ _, hl.symm, hl ▸ h1, hl ▸ h2,
    fun p hp => ⟨(mem_holes.1 hp).2.1, (mem_holes.1 hp).1⟩, fun p hp => ⟨(mem_holes.1 hp).2.2, (mem_holes.1 hp).1⟩, holes_nodup _ _ _, holes_nodup _ _ _, hz⟩
  · show AntiHermitian _ (SQOperator.op (excTerms _ _))
    rw [excTerms_op]; exact adj_exc hc ha (holes_nodup _ _ _) (holes_nodup _ _ _) hl.symm
  · exact comm _ (by have := sameSpin_sum hs 1 1; simpa using this)
  · exact comm _ (sameSpin_sum hs _ _)

/-! ### aufbau references -/

theorem spinVal_split (σ k d m : ℕ) (hm : m ≤ k) : spinVal σ k d = spinVal σ m d + ∑ p ∈ Finset.Ico m k, if d.testBit (2 * p + σ) then 2 ^ p else 0 := by
  unfold spinVal; rw [← Finset.sum_range_add_sum_Ico _ hm]

/-- among the occupations with the same number of electrons the aufbau one is the smallest -/
theorem spinVal_aufbau {σ k r d : ℕ} (h : ∀ p q, p < q → q < k → r.testBit (2 * q + σ) = true → r.testBit (2 * p + σ) = true)
    (hn : spinNum σ k r = spinNum σ k d) : spinVal σ k r ≤ spinVal σ k d := by
  have key : ∀ k, (∀ p q, p < q → q < k → r.testBit (2 * q + σ) = true → r.testBit (2 * p + σ) = true) → spinNum σ k r ≤ spinNum σ k d →
      spinVal σ k r ≤ spinVal σ k d := by
    intro k
    induction k with
    | zero => intro _ _; exact le_refl _
    | succ k ih =>
      intro h hn
      have e : ∀ x, spinNum σ (k + 1) x = spinNum σ k x + if x.testBit (2 * k + σ) then 1 else 0 := by
        intro x; unfold spinNum; rw [List.range_succ, List.countP_append]; simp [List.countP_cons]
      have v : ∀ x, spinVal σ (k + 1) x = spinVal σ k x + if x.testBit (2 * k + σ) then 2 ^ k else 0 := by
        intro x; unfold spinVal; rw [Finset.sum_range_succ]
      have full : r.testBit (2 * k + σ) = true → spinNum σ k r = k := by
        intro hb
        unfold spinNum
        rw [List.countP_eq_length.2, List.length_range]
        intro p hp
        exact h p k (List.mem_range.1 hp) (by omega) hb
      have le_k : spinNum σ k d ≤ k := by unfold spinNum; exact le_trans List.countP_le_length (by simp)
      have sub := ih (fun p q hp hq => h p q hp (by omega))
      rw [e, e] at hn
      rw [v, v]
      cases hr : r.testBit (2 * k + σ) <;> cases hd : d.testBit (2 * k + σ) <;> simp only [hr, hd, if_true, Bool.false_eq_true, if_false] at hn ⊢
      · exact sub hn
      · have : spinVal σ k r < 2 ^ k := by
          rw [← spinStr_val]; have := ofBitStr_lt (spinStr σ k r); rwa [spinStr_length] at this
        omega
      · have := full hr; omega
      · have := sub (by omega); omega
  exact key k h hn.le

/-- C49: for an aufbau reference the pool contains, exactly once and in the order of the excited determinants, every totally
symmetric excitation out of the reference that moves between one and `max` electrons and keeps the numbers of alpha and of beta
electrons. -/
theorem C49_complete_aufbau_partial (N : NextPerm) (o : DescSort) (P : SQOpPool) (k max : ℕ) (hn : P.nSpinorb = 2 * k) (hk : k ≤ 32)
    (hi : k ≤ P.orbIrreps.length) (ha : Aufbau k P.refInt) :
    ∃ N₀, ∀ fuel, N₀ ≤ fuel → fillParticleHole N o fuel P max = .ok
      { P with
        terms := P.terms ++ ((List.range (2 ^ (2 * k))).filter fun d => decide (Allowed k P.refInt P.orbIrreps max d)).map
          (fun d => (1, excTerms (holes (2 * k) d P.refInt) (holes (2 * k) P.refInt d))) } := by
  obtain ⟨N₀, h⟩ := C49_contents N o P k max hn hk hi
  refine ⟨N₀, fun fuel hf => ?_⟩
  rw [h fuel hf]
  congr 4
  apply List.filter_congr
  intro d _
  apply decide_eq_decide.2
  constructor
  · rintro ⟨_, _, h⟩; exact h
  · intro h; exact ⟨spinVal_aufbau (ha 0 (by omega)) h.1.1, spinVal_aufbau (ha 1 (by omega)) h.1.2, h⟩

/-- different excited determinants give different pool operators -/
theorem C49_distinct (k r d d' : ℕ) (hd : d < 2 ^ (2 * k)) (hd' : d' < 2 ^ (2 * k))
    (h : excTerms (holes (2 * k) d r) (holes (2 * k) r d) = excTerms (holes (2 * k) d' r) (holes (2 * k) r d')) : d = d' := by
  have mem : ∀ d, ((1 : ℂ), holes (2 * k) d r, holes (2 * k) r d) ∈ excTerms (holes (2 * k) d r) (holes (2 * k) r d) := by
    intro d; unfold excTerms; split <;> simp
  have m := mem d
  rw [h] at m
  have : holes (2 * k) d r = holes (2 * k) d' r ∧ holes (2 * k) r d = holes (2 * k) r d' := by
    unfold excTerms at m
    have h1 : (1 : ℂ) ≠ -1 := by norm_num
    split at m <;> simpa [h1] using m
  apply Nat.eq_of_testBit_eq
  intro p
  by_cases hp : p < 2 * k
  · have e1 := congrArg (p ∈ ·) this.1
    have e2 := congrArg (p ∈ ·) this.2
    simp only [mem_holes, hp, true_and, eq_iff_iff] at e1 e2
    cases hb : r.testBit p <;> cases h1 : d.testBit p <;> cases h2 : d'.testBit p <;> simp_all
  · have h2 : 2 ^ (2 * k) ≤ 2 ^ p := Nat.pow_le_pow_right (by norm_num) (by omega)
    rw [Nat.testBit_lt_two_pow (by omega), Nat.testBit_lt_two_pow (by omega)]

/-- C49 fails for a reference that is not aufbau: with one alpha electron in the second orbital, the excitation to the first
orbital is allowed, and the pool is empty. -/
theorem C49_refuted_non_aufbau (N : NextPerm) (o : DescSort) : ∃ (P : SQOpPool), (∃ P₀ : SQOpPool, P₀.setOrbSpaces [0, 0, 1, 0] = .ok P) ∧
    Allowed 2 P.refInt P.orbIrreps 1 1 ∧ ∃ N₀, ∀ fuel, N₀ ≤ fuel → fillParticleHole N o fuel P 1 = .ok P := by
  let P : SQOpPool := { refInt := 4, nSpinorb := 4, nOccAlpha := 1, nOccBeta := 0, nVirAlpha := 1, nVirBeta := 2, orbIrreps := [0, 0], terms := [] }
  refine ⟨P, ⟨{}, rfl⟩, by decide, ?_⟩
  obtain ⟨N₀, h⟩ := C49_contents N o P 2 1 rfl (by omega) (by decide)
  refine ⟨N₀, fun fuel hf => ?_⟩
  rw [h fuel hf]
  have : ((List.range (2 ^ (2 * 2))).filter fun d => decide (spinVal 0 2 P.refInt ≤ spinVal 0 2 d ∧ spinVal 1 2 P.refInt ≤ spinVal 1 2 d ∧
        Allowed 2 P.refInt P.orbIrreps 1 d)) = [] := by decide
  rw [this]
  rfl

/-- more than 64 spin orbitals are rejected -/
theorem C49_too_large (N : NextPerm) (o : DescSort) (fuel max : ℕ) (P : SQOpPool) (h : 64 < P.nSpinorb) :
    fillParticleHole N o fuel P max = .error .outOfRange := by
  unfold fillParticleHole; rw [if_pos h]

/-- the hypotheses hold for H2 in a minimal basis, and the singles and doubles pool has three operators -/
theorem C49_example : ∃ (P : SQOpPool), (∃ P₀ : SQOpPool, P₀.setOrbSpaces [1, 1, 0, 0] = .ok P) ∧ P.nSpinorb = 2 * 2 ∧ 2 ≤ P.orbIrreps.length ∧
    Aufbau 2 P.refInt ∧ ((List.range (2 ^ (2 * 2))).filter fun d => decide (Allowed 2 P.refInt P.orbIrreps 2 d)) = [6, 9, 12] := by
  let P : SQOpPool := { refInt := 3, nSpinorb := 4, nOccAlpha := 1, nOccBeta := 1, nVirAlpha := 1, nVirBeta := 1, orbIrreps := [0, 0], terms := [] }
  refine ⟨P, ⟨{}, rfl⟩, rfl, by decide, ?_, by decide⟩
  intro σ hσ p q hp hq h
  have : p = 0 := by omega
  subst this
  interval_cases σ <;> decide

end SQOpPool
end QF
