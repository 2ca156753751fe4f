import Verif.Model.SPQE
import Verif.Props.PQE
import Verif.Props.UCCPool

/-!
C86: the operator pool of SPQE.
-/
namespace QF

open SQOperator (DescSort)
open SQOpPool

namespace Spqe

/-! ### binary digits -/

theorem digits_eq (n : ℕ) : Nat.digits 2 n = (List.range (Nat.digits 2 n).length).map fun i => if n.testBit i then 1 else 0 := by
  apply List.ext_getElem
  · simp
  · intro i h1 h2
    have h := Nat.getD_digits n i (b := 2) (by norm_num)
    rw [List.getD_eq_getElem _ _ h1] at h
    rw [h, List.getElem_map, List.getElem_range, Nat.testBit_eq_decide_div_mod_eq]
    rcases Nat.mod_two_eq_zero_or_one (n / 2 ^ i) with e | e <;> simp [e]

theorem digits_len {n N : ℕ} (h : n < 2 ^ N) : (Nat.digits 2 n).length ≤ N := by
  rw [Nat.digits_length_le_iff (by norm_num)]; exact h

theorem testBit_ge_digits {n i : ℕ} (h : (Nat.digits 2 n).length ≤ i) : n.testBit i = false := by
  apply Nat.testBit_lt_two_pow
  exact (Nat.digits_length_le_iff (by norm_num) n).1 h

theorem filter_range_extend {P : ℕ → Bool} {L N : ℕ} (h : L ≤ N) (hP : ∀ i, L ≤ i → P i = false) : (List.range N).filter P = (List.range L).filter P := by
  induction N, h using Nat.le_induction with
  | base => rfl
  | succ N hN ih => rw [List.range_succ, List.filter_append, ih]; simp [hP N hN]

theorem setPositions_cons (a : ℕ) (l : List ℕ) : setPositions (a :: l) = (if a ≠ 0 then [l.length] else []) ++ setPositions l := by
  unfold setPositions
  rw [List.zipIdx_cons', List.filter_cons, List.filter_map]
  have key : ((l.zipIdx.filter ((fun p : ℕ × ℕ => decide (p.1 ≠ 0)) ∘ Prod.map id fun x => x + 1)).map (Prod.map id fun x => x + 1)).map
      (fun p => (a :: l).length - p.2 - 1) = (l.zipIdx.filter fun p => decide (p.1 ≠ 0)).map fun p => l.length - p.2 - 1 := by
    rw [List.map_map]
    apply List.map_congr_left
    rintro ⟨x, i⟩ _
    simp only [Function.comp, Prod.map, List.length_cons]
    omega
  by_cases ha : a = 0
  · simp only [ha, ne_eq, not_true_eq_false, decide_false, Bool.false_eq_true, if_false, List.nil_append]
    simpa using key
  · simp only [ne_eq, ha, not_false_eq_true, decide_true, if_true, List.map_cons]
    simpa using key

theorem setPositions_range (L : ℕ) (P : ℕ → Bool) : setPositions ((List.range L).reverse.map fun i => if P i then 1 else 0) = (List.range L).reverse.filter P := by
  induction L with
  | zero => rfl
  | succ L ih =>
    rw [List.range_succ, List.reverse_append, List.reverse_singleton, List.singleton_append, List.map_cons, setPositions_cons, ih, List.filter_cons]
    cases P L <;> simp

theorem binDigits_pos {n : ℕ} (h : n ≠ 0) : binDigits n = (List.range (Nat.digits 2 n).length).reverse.map fun i => if n.testBit i then 1 else 0 := by
  unfold binDigits
  rw [if_neg h]
  conv_lhs => rw [digits_eq n]
  rw [List.map_reverse]

theorem positions_eq {n N : ℕ} (h : n < 2 ^ N) : setPositions (binDigits n) = (List.range N).reverse.filter n.testBit := by
  by_cases h0 : n = 0
  · subst h0
    simp [binDigits, setPositions]
  · rw [binDigits_pos h0, setPositions_range, List.filter_reverse, List.filter_reverse, filter_range_extend (digits_len h) fun i hi => testBit_ge_digits hi]

theorem ind_sum (l : List ℕ) (P : ℕ → Bool) : (l.map fun i => if P i then 1 else 0).sum = (l.filter P).length := by
  induction l with
  | nil => rfl
  | cons x l ih => rw [List.map_cons, List.sum_cons, ih, List.filter_cons]; cases P x <;> simp [add_comm]

theorem ind_count (l : List ℕ) (P : ℕ → Bool) : (l.map fun i => if P i then 1 else 0).count 1 = (l.filter P).length := by
  induction l with
  | nil => rfl
  | cons x l ih => rw [List.map_cons, List.count_cons, ih, List.filter_cons]; cases P x <;> simp

theorem binDigits_sum {n N : ℕ} (h : n < 2 ^ N) : (binDigits n).sum = ((List.range N).filter n.testBit).length := by
  by_cases h0 : n = 0
  · subst h0
    rw [List.filter_eq_nil_iff.2 (by simp)]; rfl
  · rw [binDigits_pos h0, ind_sum, List.filter_reverse, List.length_reverse, filter_range_extend (digits_len h) fun i hi => testBit_ge_digits hi]

theorem binDigits_count {n N : ℕ} (h : n < 2 ^ N) : (binDigits n).count 1 = ((List.range N).filter n.testBit).length := by
  by_cases h0 : n = 0
  · subst h0
    rw [List.filter_eq_nil_iff.2 (by simp)]; rfl
  · rw [binDigits_pos h0, ind_count, List.filter_reverse, List.length_reverse, filter_range_extend (digits_len h) fun i hi => testBit_ge_digits hi]

theorem binDigits_zero {n : ℕ} : binDigits n = [0] ↔ n = 0 := by
  constructor
  · intro h
    by_contra h0
    unfold binDigits at h
    rw [if_neg h0] at h
    have h' : Nat.digits 2 n = [0] := by simpa using congrArg List.reverse h
    have := Nat.ofDigits_digits 2 n
    rw [h'] at this
    simp at this
    exact h0 this.symm
  · rintro rfl; rfl

/-! ### the reference -/

theorem refInt_cons (b : ℕ) (l : List ℕ) : refInt (b :: l) = b + 2 * refInt l := by
  unfold refInt
  rw [List.zipIdx_cons', List.map_cons, List.map_map, List.sum_cons]
  have : l.zipIdx.map ((fun p : ℕ × ℕ => p.1 <<< p.2) ∘ Prod.map id fun x => x + 1) = (l.zipIdx.map fun p => p.1 <<< p.2).map (2 * ·) := by
    rw [List.map_map]
    apply List.map_congr_left
    rintro ⟨x, i⟩ _
    simp only [Function.comp, Prod.map, id, Nat.shiftLeft_eq]
    ring
  rw [this, List.sum_map_mul_left, List.map_id']
  simp

theorem refInt_isRefDet {ref : List ℕ} (h : Occ ref) : IsRefDet ref (refInt ref) := by
  induction ref with
  | nil => intro i; simp [refInt]
  | cons b l ih =>
    have hb := h b (by simp)
    have ih := ih fun x hx => h x (by simp [hx])
    intro i
    rw [refInt_cons]
    cases i with
    | zero => rcases hb with rfl | rfl <;> simp [Nat.testBit_zero, Nat.add_mod]
    | succ i =>
      rw [Nat.testBit_succ, show (b + 2 * refInt l) / 2 = refInt l by omega, ih i]
      simp

theorem isRefDet_unique {ref : List ℕ} {R S : ℕ} (h1 : IsRefDet ref R) (h2 : IsRefDet ref S) : R = S := Nat.eq_of_testBit_eq fun i => by rw [h1, h2]

theorem isRefDet_lt {ref : List ℕ} {R : ℕ} (h : IsRefDet ref R) : R < 2 ^ ref.length := by
  by_contra hc
  have : 2 ^ ref.length ≤ R := by omega
  obtain ⟨i, hi, hb⟩ := Nat.exists_ge_and_testBit_of_ge_two_pow this
  rw [h i] at hb
  simp [List.getD_eq_getElem?_getD, List.getElem?_eq_none hi] at hb

theorem spinNum_succ (σ k d : ℕ) : spinNum σ (k + 1) d = spinNum σ k d + if d.testBit (2 * k + σ) then 1 else 0 := by
  unfold spinNum
  rw [List.range_succ, List.countP_append, List.countP_singleton]

theorem filter_spin {σ : ℕ} (hσ : σ < 2) (k d : ℕ) : ((List.range (2 * k)).filter fun p => d.testBit p && decide (p % 2 = σ)).length = spinNum σ k d := by
  induction k with
  | zero => rfl
  | succ k ih =>
    rw [spinNum_succ, ← ih, show 2 * (k + 1) = 2 * k + 1 + 1 by ring, List.range_succ, List.range_succ, List.filter_append, List.filter_append,
      List.length_append, List.length_append]
    have h0 : 2 * k % 2 = 0 := by omega
    have h1 : (2 * k + 1) % 2 = 1 := by omega
    interval_cases σ
    · cases hb : d.testBit (2 * k) <;> cases hb' : d.testBit (2 * k + 1) <;> simp [h0, h1, hb]
    · cases hb : d.testBit (2 * k) <;> cases hb' : d.testBit (2 * k + 1) <;> simp [h0, h1, hb']

theorem spinCount_eq {ref : List ℕ} (hO : Occ ref) {k : ℕ} (hl : ref.length = 2 * k) {R : ℕ} (hR : IsRefDet ref R) {σ : ℕ} (hσ : σ < 2) :
    spinCount σ ref = spinNum σ k R := by
  rw [← filter_spin hσ]
  unfold spinCount
  have hz : ref.zipIdx = (List.range (2 * k)).map fun i => (ref.getD i 0, i) := by
    apply List.ext_getElem
    · simp [hl]
    · intro i h1 h2
      have hi : i < ref.length := by simpa using h1
      rw [List.getElem_zipIdx, List.getElem_map, List.getElem_range, List.getD_eq_getElem _ _ hi]
      simp
  rw [hz, List.filter_map, List.map_map]
  have : ((List.range (2 * k)).filter fun p => R.testBit p && decide (p % 2 = σ)) =
      ((List.range (2 * k)).filter fun p => decide (p % 2 = σ)).filter R.testBit := by rw [List.filter_filter]
  rw [this, ← ind_sum]
  apply congrArg List.sum
  apply List.map_congr_left
  intro i hi
  have hi2 : i < ref.length := by rw [hl]; exact List.mem_range.1 (List.mem_filter.1 hi).1
  have := hO (ref[i]) (List.getElem_mem hi2)
  simp only [Function.comp]
  rw [hR i, List.getD_eq_getElem _ _ hi2]
  rcases this with e | e <;> simp [e]

/-! ### masks -/

theorem maskAlpha_bit : ∀ p < 64, maskAlpha.testBit p = decide (p % 2 = 0) := by decide
theorem maskBeta_bit : ∀ p < 64, maskBeta.testBit p = decide (p % 2 = 1) := by decide

theorem filter_mask {m : ℕ} {σ N I : ℕ} (hm : ∀ p < 64, m.testBit p = decide (p % 2 = σ)) (hN : N ≤ 64) :
    (List.range N).filter (I &&& m).testBit = (List.range N).filter fun p => I.testBit p && decide (p % 2 = σ) := by
  apply List.filter_congr
  intro p hp
  rw [Nat.testBit_and, hm p (by have := List.mem_range.1 hp; omega)]

/-! ### the excitation -/

theorem excitPos_fold (ref : List ℕ) (v : ℕ) (P : ℕ → Bool) (L : ℕ) (hL : L ≤ ref.length) :
    (((List.range L).map fun i => if P i then 1 else 0).zipIdx).foldlM (fun (l : List ℕ) (p : ℕ × ℕ) =>
      if p.1 = 1 then (do
        let b ← pyIndex ref p.2
        pure (if b = v then l ++ [p.2] else l) : Except Exc (List ℕ))
      else pure l) [] = .ok ((List.range L).filter fun i => P i && decide (ref.getD i 0 = v)) := by
  induction L with
  | zero => rfl
  | succ L ih =>
    rw [List.range_succ, List.map_append, List.zipIdx_append, List.foldlM_append, ih (by omega), except_ok_bind, List.filter_append]
    simp only [List.map_cons, List.map_nil, List.zipIdx_cons, List.zipIdx_nil, List.foldlM_cons, List.foldlM_nil, List.length_map, List.length_range, zero_add]
    have hp : pyIndex ref L = .ok (ref.getD L 0) := by
      rw [List.getD_eq_getElem _ _ (by omega)]
      exact pyIndex_ok (List.getElem?_eq_getElem (by omega))
    cases hb : P L
    · simp [hb]; rfl
    · simp only [if_true, hp, except_ok_bind, hb, List.filter_cons, List.filter_nil, Bool.true_and]
      by_cases hv : ref.getD L 0 = v
      · rw [if_pos hv, decide_eq_true hv]; rfl
      · rw [if_neg hv, decide_eq_false hv]
        simp only [Bool.false_eq_true, if_false, List.append_nil]; rfl

theorem excitPos_eq {ref : List ℕ} {v n : ℕ} (h0 : n ≠ 0) (h : n < 2 ^ ref.length) :
    excitPos ref v (binDigits n) = .ok ((List.range ref.length).filter fun i => n.testBit i && decide (ref.getD i 0 = v)) := by
  unfold excitPos
  rw [binDigits_pos h0, List.map_reverse, List.reverse_reverse, excitPos_fold ref v _ _ (digits_len h),
    filter_range_extend (digits_len h) fun i hi => by rw [testBit_ge_digits hi]; rfl]

theorem holes_reverse (n r d : ℕ) : (holes n r d).reverse = (List.range n).filter fun p => r.testBit p && !d.testBit p := by
  unfold holes; rw [List.filter_reverse, List.reverse_reverse]

theorem xor_count (n r d : ℕ) : ((List.range n).filter (r ^^^ d).testBit).length = (holes n r d).length + (holes n d r).length := by
  rw [← List.length_reverse (as := holes n r d), ← List.length_reverse (as := holes n d r), holes_reverse, holes_reverse]
  induction n with
  | zero => rfl
  | succ n ih =>
    rw [List.range_succ, List.filter_append, List.filter_append, List.filter_append, List.length_append, List.length_append, List.length_append, ih]
    simp only [List.filter_cons, List.filter_nil, Nat.testBit_xor]
    cases r.testBit n <;> cases d.testBit n <;> simp <;> omega

/-- the spin orbitals occupied in the determinant `I` -/
theorem occ_perm {N I : ℕ} : ((List.range N).reverse.filter (fun p => I.testBit p && decide (p % 2 = 0)) ++
    (List.range N).reverse.filter (fun p => I.testBit p && decide (p % 2 = 1))).Perm (holes N I 0) := by
  unfold holes
  rw [← List.filter_filter, ← List.filter_filter]
  have h1 : ((List.range N).reverse.filter (fun p => decide (p % 2 = 1))) = (List.range N).reverse.filter (fun p => !decide (p % 2 = 0)) := by
    apply List.filter_congr
    intro p _
    rcases Nat.mod_two_eq_zero_or_one p with e | e <;> simp [e]
  rw [h1, ← List.filter_append]
  have h2 := (List.filter_append_perm (fun p => decide (p % 2 = 0)) (List.range N).reverse).filter I.testBit
  simpa using h2

/-! ### the pool -/

/-- the determinants SPQE may use: other than the reference `R`, same numbers of alpha and of beta electrons, the requested irrep, and at most
`rank` electrons moved (no limit for `none`) -/
def Target (k R : ℕ) (irr : List ℕ) (irrep : ℕ) (rank : Option ℤ) (I : ℕ) : Prop :=
  I ≠ R ∧ SameSpin k R I ∧ irrepOf irr (holes (2 * k) I 0) = irrep ∧ ∀ r, rank = some r → ((holes (2 * k) R I).length : ℤ) ≤ r

/-- the determinants, in increasing order -/
noncomputable def targets (k R : ℕ) (irr : List ℕ) (irrep : ℕ) (rank : Option ℤ) : List ℕ :=
  open Classical in (List.range (2 ^ (2 * k))).filter fun I => decide (Target k R irr irrep rank I)

theorem holes_le (k R I : ℕ) : (holes (2 * k) R I).length ≤ spinNum 0 k R + spinNum 1 k R := by
  rw [← filter_spin (σ := 0) (by omega), ← filter_spin (σ := 1) (by omega), ← List.length_reverse, holes_reverse]
  induction k with
  | zero => simp
  | succ k ih =>
    rw [show 2 * (k + 1) = 2 * k + 1 + 1 by ring, List.range_succ, List.range_succ]
    simp only [List.filter_append, List.length_append, List.filter_cons, List.filter_nil]
    have h0 : 2 * k % 2 = 0 := by omega
    have h1 : (2 * k + 1) % 2 = 1 := by omega
    cases R.testBit (2 * k) <;> cases R.testBit (2 * k + 1) <;> cases I.testBit (2 * k) <;> cases I.testBit (2 * k + 1) <;> simp [h0, h1] <;> omega

theorem holes_ne {n R I : ℕ} (hR : R < 2 ^ n) (hI : I < 2 ^ n) (h : I ≠ R) : 0 < (holes n R I).length + (holes n I R).length := by
  rw [← xor_count]
  obtain ⟨p, hp⟩ := Nat.exists_testBit_ne_of_ne h
  have hpn : p < n := by
    by_contra hc
    have := Nat.pow_le_pow_right (show 0 < 2 by norm_num) (show n ≤ p by omega)
    rw [Nat.testBit_lt_two_pow (by omega), Nat.testBit_lt_two_pow (by omega)] at hp
    exact hp rfl
  apply List.length_pos_of_mem (a := p)
  rw [List.mem_filter]
  refine ⟨List.mem_range.2 hpn, ?_⟩
  rw [Nat.testBit_xor]
  cases h1 : R.testBit p <;> cases h2 : I.testBit p <;> simp_all

theorem poolStep_spec (o : DescSort) {k : ℕ} {ref irr : List ℕ} (hO : Occ ref) (hl : ref.length = 2 * k) (hk : k ≤ 32) (hi : k ≤ irr.length) (irrep max : ℕ)
    {R : ℕ} (hR : IsRefDet ref R) {I : ℕ} (hI : I < 2 ^ (2 * k)) (P : Pool) :
    poolStep o ref irr irrep max P I = .ok (open Classical in if I ≠ R ∧ SameSpin k R I ∧ irrepOf irr (holes (2 * k) I 0) = irrep ∧ (holes (2 * k) R I).length ≤ max then
      { elems := P.elems ++ [(0, excTerms (holes (2 * k) I R) (holes (2 * k) R I))], toPool := P.toPool ++ [(I, P.elems.length)] } else P) := by
  have hRlt : R < 2 ^ (2 * k) := by rw [← hl]; exact isRefDet_lt hR
  have hRi : refInt ref = R := isRefDet_unique (refInt_isRefDet hO) hR
  have hx : refInt ref ^^^ I < 2 ^ ref.length := by rw [hRi, hl]; exact Nat.xor_lt_two_pow hRlt hI
  have hIa : I &&& maskAlpha < 2 ^ (2 * k) := lt_of_le_of_lt Nat.and_le_left hI
  have hIb : I &&& maskBeta < 2 ^ (2 * k) := lt_of_le_of_lt Nat.and_le_left hI
  have sa : (binDigits (I &&& maskAlpha)).sum = spinNum 0 k I := by
    rw [binDigits_sum hIa, filter_mask maskAlpha_bit (by omega), filter_spin (by omega)]
  have sb : (binDigits (I &&& maskBeta)).sum = spinNum 1 k I := by
    rw [binDigits_sum hIb, filter_mask maskBeta_bit (by omega), filter_spin (by omega)]
  unfold poolStep
  simp only [sa, sb, spinCount_eq hO hl hR (show 0 < 2 by omega), spinCount_eq hO hl hR (show 1 < 2 by omega)]
  by_cases hs : SameSpin k R I
  · rw [if_pos ⟨hs.1.symm, hs.2.symm⟩]
    have pa : setPositions (binDigits (I &&& maskAlpha)) = (List.range (2 * k)).reverse.filter fun p => I.testBit p && decide (p % 2 = 0) := by
      rw [positions_eq hIa, List.filter_reverse, List.filter_reverse, filter_mask maskAlpha_bit (by omega)]
    have pb : setPositions (binDigits (I &&& maskBeta)) = (List.range (2 * k)).reverse.filter fun p => I.testBit p && decide (p % 2 = 1) := by
      rw [positions_eq hIb, List.filter_reverse, List.filter_reverse, filter_mask maskBeta_bit (by omega)]
    have hperm := occ_perm (N := 2 * k) (I := I)
    rw [← pa, ← pb] at hperm
    have hb : ∀ i ∈ holes (2 * k) I 0, i / 2 < irr.length := by
      intro i hm
      rw [mem_holes] at hm
      omega
    have hv : findIrrep irr (setPositions (binDigits (I &&& maskAlpha)) ++ setPositions (binDigits (I &&& maskBeta))) = .ok (irrepOf irr (holes (2 * k) I 0)) := by
      rw [C45_perm irr _ _ (fun i hm => hb i (hperm.mem_iff.1 hm)) hperm, C45_value irr _ hb]; rfl
    rw [hv, except_ok_bind]
    by_cases hz : irrepOf irr (holes (2 * k) I 0) = irrep
    · rw [if_pos hz]
      have hln := sameSpin_length hs
      have hc : (binDigits (refInt ref ^^^ I)).count 1 / 2 = (holes (2 * k) R I).length := by
        rw [binDigits_count hx, hl, hRi, xor_count, ← hln]; omega
      rw [hc]
      by_cases hne : I = R
      · rw [if_neg, if_neg (fun h => h.1 hne)]; · rfl
        rintro ⟨h, _⟩
        exact h (binDigits_zero.2 (by rw [hRi, hne, Nat.xor_self]))
      · have hx0 : refInt ref ^^^ I ≠ 0 := by rw [hRi]; intro h; exact hne (Nat.xor_eq_zero_iff.1 h).symm
        have hd0 : binDigits (refInt ref ^^^ I) ≠ [0] := fun h => hx0 (binDigits_zero.1 h)
        by_cases hm : (holes (2 * k) R I).length ≤ max
        · rw [if_pos ⟨hd0, hm⟩, if_pos ⟨hne, hs, hz, hm⟩, excitPos_eq hx0 hx, excitPos_eq hx0 hx, except_ok_bind, except_ok_bind]
          have e1 : ((List.range ref.length).filter fun i => (refInt ref ^^^ I).testBit i && decide (ref.getD i 0 = 1)) = (holes (2 * k) R I).reverse := by
            rw [holes_reverse, hl]
            apply List.filter_congr
            intro p _
            rw [hRi, Nat.testBit_xor, ← hR p]
            cases R.testBit p <;> cases I.testBit p <;> rfl
          have e0 : ((List.range ref.length).filter fun i => (refInt ref ^^^ I).testBit i && decide (ref.getD i 0 = 0)) = (holes (2 * k) I R).reverse := by
            rw [holes_reverse, hl]
            apply List.filter_congr
            intro p hp
            have hp' : p < ref.length := by rw [hl]; exact List.mem_range.1 hp
            have h01 := hO ref[p] (List.getElem_mem hp')
            have hRp := hR p
            rw [hRi, Nat.testBit_xor, hRp, List.getD_eq_getElem _ _ hp']
            rcases h01 with e | e <;> rw [e] <;> cases I.testBit p <;> rfl
          rw [e1, e0, List.reverse_reverse, List.reverse_reverse]
          have hpos : 0 < (holes (2 * k) R I).length := by have := holes_ne hRlt hI hne; omega
          have hne' : holes (2 * k) I R ≠ holes (2 * k) R I := by
            intro e
            obtain ⟨p, hp⟩ := List.exists_mem_of_length_pos hpos
            have h1 := mem_holes.1 hp
            rw [← e] at hp
            have h2 := mem_holes.1 hp
            rw [h1.2.1] at h2
            exact absurd h2.2.2 (by simp)
          rw [simplify_exc o _ ?_ (holes_desc _ _ _) (holes_desc _ _ _) hne' ?_]
          · rfl
          · intro t ht
            simp only [SQOperator.addTerm, List.nil_append, List.mem_append, List.mem_singleton] at ht
            rcases ht with rfl | rfl
            · exact ⟨List.nodup_reverse.2 (holes_nodup _ _ _), List.nodup_reverse.2 (holes_nodup _ _ _)⟩
            · exact ⟨holes_nodup _ _ _, holes_nodup _ _ _⟩
          · simp only [SQOperator.op, SQOperator.addTerm, List.nil_append, List.map_append, List.map_cons, List.map_nil, List.sum_append, List.sum_cons, List.sum_nil, add_zero, one_smul]
            rw [fermiString_reverse (holes_nodup _ _ _) (holes_nodup _ _ _) hln.symm]
            exact op_sub₁ _ _
        · rw [if_neg (fun h => hm h.2), if_neg (fun h => hm h.2.2.2)]; rfl
    · rw [if_neg hz, if_neg (fun h => hz h.2.2.1)]; rfl
  · rw [if_neg (fun h => hs ⟨h.1.symm, h.2.symm⟩), if_neg (fun h => hs h.2.1)]; rfl

/-- the operator that makes `I` from the reference -/
noncomputable def opOf (k R I : ℕ) : ℂ × SQOperator := (0, excTerms (holes (2 * k) I R) (holes (2 * k) R I))

theorem poolFold (f : Pool → ℕ → Except Exc Pool) (k R : ℕ) (Q : ℕ → Bool)
    (l : List ℕ) (hf : ∀ P, ∀ I ∈ l, f P I = .ok (if Q I then { elems := P.elems ++ [opOf k R I], toPool := P.toPool ++ [(I, P.elems.length)] } else P)) :
    ∀ P : Pool, l.foldlM f P = .ok { elems := P.elems ++ (l.filter Q).map (opOf k R), toPool := P.toPool ++ (l.filter Q).zipIdx P.elems.length } := by
  induction l with
  | nil => intro P; simp; rfl
  | cons I l ih =>
    intro P
    rw [List.foldlM_cons, hf P I (by simp), except_ok_bind, ih (fun P J hJ => hf P J (by simp [hJ]))]
    cases hq : Q I
    · simp [hq]
    · simp [hq, List.append_assoc]

/-- C86: the pool.  For every reference on `2k ≤ 64` spin orbitals, orbital symmetries, requested irrep and maximal excitation rank, the pool
has, in the order of the excited determinants, one operator for every determinant other than the reference with the requested numbers of
electrons, irrep and rank.  The operator is `∏ particles† ∏ holes` minus its adjoint.  A rank that is not positive raises `TypeError`. -/
theorem C86_pool (o : DescSort) (k : ℕ) (ref irr : List ℕ) (hO : Occ ref) (hl : ref.length = 2 * k) (hk : k ≤ 32) (hi : k ≤ irr.length) (irrep : ℕ) (rank : Option ℤ)
    (R : ℕ) (hR : IsRefDet ref R) :
    ((∀ r, rank = some r → 0 < r) → buildPool o (2 * k) ref irr irrep rank = .ok
      { elems := (targets k R irr irrep rank).map fun I => (0, excTerms (holes (2 * k) I R) (holes (2 * k) R I)), toPool := (targets k R irr irrep rank).zipIdx }) ∧
    ((∃ r, rank = some r ∧ r ≤ 0) → buildPool o (2 * k) ref irr irrep rank = .error .typeError) := by
  classical
  constructor
  · intro hr
    have hm : ∃ max, maxRank ref rank = .ok max ∧
        ∀ I, (holes (2 * k) R I).length ≤ max ↔ ∀ r, rank = some r → ((holes (2 * k) R I).length : ℤ) ≤ r := by
      have hle := fun I => holes_le k R I
      rw [← spinCount_eq hO hl hR (show 0 < 2 by omega), ← spinCount_eq hO hl hR (show 1 < 2 by omega)] at hle
      cases rank with
      | none => exact ⟨_, rfl, fun I => ⟨fun _ r h => by simp at h, fun _ => hle I⟩⟩
      | some r =>
        have h0 := hr r rfl
        refine ⟨min r.toNat (spinCount 0 ref + spinCount 1 ref), by unfold maxRank; simp only; rw [if_neg (by omega)], fun I => ?_⟩
        have := hle I
        constructor
        · intro h r' e; cases e; omega
        · intro h; have := h r rfl; omega
    obtain ⟨max, e, hmax⟩ := hm
    unfold buildPool
    rw [e, except_ok_bind, Nat.one_shiftLeft, poolFold _ k R (fun I => decide (Target k R irr irrep rank I))]
    · simp [targets, opOf]
    · intro P I hI
      rw [poolStep_spec o hO hl hk hi irrep max hR (List.mem_range.1 hI)]
      congr 1
      by_cases h : Target k R irr irrep rank I
      · rw [if_pos ⟨h.1, h.2.1, h.2.2.1, (hmax I).2 h.2.2.2⟩, if_pos (by simpa using h)]; rfl
      · rw [if_neg (fun h' => h ⟨h'.1, h'.2.1, h'.2.2.1, (hmax I).1 h'.2.2.2⟩), if_neg (by simpa using h)]
  · rintro ⟨r, rfl, h⟩
    unfold buildPool maxRank
    simp only
    rw [if_pos h]; rfl

/-- C86: the list is complete, without repetition and increasing. -/
theorem C86_complete (k R : ℕ) (irr : List ℕ) (irrep : ℕ) (rank : Option ℤ) :
    (∀ I, I ∈ targets k R irr irrep rank ↔ I < 2 ^ (2 * k) ∧ Target k R irr irrep rank I) ∧ (targets k R irr irrep rank).Pairwise (· < ·) := by
  classical
  refine ⟨fun I => ?_, List.pairwise_lt_range.filter _⟩
  unfold targets
  rw [List.mem_filter, List.mem_range, decide_eq_true_iff]

theorem target_excit {k R I : ℕ} (hR : R < 2 ^ (2 * k)) (hI : I < 2 ^ (2 * k)) (hs : SameSpin k R I) (hne : I ≠ R) :
    Excit (2 * k) (holes (2 * k) I R) (holes (2 * k) R I) ∧ 0 < (holes (2 * k) I R).length := by
  have hln := sameSpin_length hs
  have hpos : 0 < (holes (2 * k) I R).length := by have := holes_ne hR hI hne; omega
  refine ⟨⟨holes_desc _ _ _, holes_desc _ _ _, hln.symm, ?_, fun p hp => (mem_holes.1 hp).1, fun p hp => (mem_holes.1 hp).1⟩, hpos⟩
  intro e
  obtain ⟨p, hp⟩ := List.exists_mem_of_length_pos hpos
  have h1 := mem_holes.1 hp
  rw [e] at hp
  have h2 := mem_holes.1 hp
  rw [h1.2.2] at h2
  exact absurd h2.2.1 (by simp)

theorem target_particleHole {k R I : ℕ} {ref : List ℕ} (hO : Occ ref) (hl : ref.length = 2 * k) (hR : IsRefDet ref R) (hpos : 0 < (holes (2 * k) I R).length) :
    ParticleHole ref (holes (2 * k) I R) (holes (2 * k) R I) := by
  refine ⟨fun p hp => ?_, fun p hp => ?_, List.ne_nil_of_length_pos hpos⟩
  · obtain ⟨h1, h2, h3⟩ := mem_holes.1 hp
    rw [hR p, decide_eq_true_iff, List.getD_eq_getElem _ _ (by omega)] at h2
    rw [List.getElem?_eq_getElem (by omega), h2]
  · obtain ⟨h1, h2, h3⟩ := mem_holes.1 hp
    rw [hR p, decide_eq_false_iff_not, List.getD_eq_getElem _ _ (by omega)] at h3
    rw [List.getElem?_eq_getElem (by omega)]
    rcases hO ref[p] (List.getElem_mem (by omega)) with e | e
    · rw [e]
    · exact absurd e h3

theorem flip_target {n R I : ℕ} (hR : R < 2 ^ n) (hI : I < 2 ^ n) : flipAll (holes n I R ++ holes n R I) R = I := by
  have hnd : (holes n I R ++ holes n R I).Nodup := List.nodup_append.2 ⟨holes_nodup _ _ _, holes_nodup _ _ _, fun p hp q hq e => by
    subst e
    have h1 := mem_holes.1 hp
    have h2 := mem_holes.1 hq
    rw [h1.2.2] at h2
    exact absurd h2.2.1 (by simp)⟩
  apply Nat.eq_of_testBit_eq
  intro p
  rw [testBit_flipAll hnd]
  by_cases hp : p < n
  · cases h1 : R.testBit p <;> cases h2 : I.testBit p <;> simp [mem_holes, hp, h1, h2]
  · have := Nat.pow_le_pow_right (show 0 < 2 by norm_num) (show n ≤ p by omega)
    simp [mem_holes, hp, Nat.testBit_lt_two_pow (show R < 2 ^ p by omega), Nat.testBit_lt_two_pow (show I < 2 ^ p by omega)]

/-- C86: every pool operator makes its determinant from the reference: `κ|R⟩ = ±|I⟩`, for fermionic and for qubit excitations. -/
theorem C86_excites (q : Bool) (k R : ℕ) (irr : List ℕ) (irrep : ℕ) (rank : Option ℤ) (hR : R < 2 ^ (2 * k)) (I : ℕ) (h : I ∈ targets k R irr irrep rank) :
    ∃ s : ℂ, (s = 1 ∨ s = -1) ∧ kappa q (holes (2 * k) I R) (holes (2 * k) R I) (Pi.single R 1) = s • (Pi.single I 1 : St) := by
  obtain ⟨hI, h1, h2, _⟩ := ((C86_complete k R irr irrep rank).1 I).1 h
  obtain ⟨he, hp⟩ := target_excit hR hI h2 h1
  have hnd : (holes (2 * k) I R ++ holes (2 * k) R I).Nodup := List.nodup_append.2 ⟨holes_nodup _ _ _, holes_nodup _ _ _, fun p hp q hq e => by
    subst e
    have h1 := mem_holes.1 hp
    have h2 := mem_holes.1 hq
    rw [h1.2.2] at h2
    exact absurd h2.2.1 (by simp)⟩
  have := kappa_det q hnd (List.ne_nil_of_length_pos (by rw [← he.rank]; exact hp)) (R := R) (fun p hp => (mem_holes.1 hp).2.1) (fun p hp => (mem_holes.1 hp).2.2)
  rwa [flip_target hR hI] at this

theorem foldr_xor (l : List ℕ) (a : ℕ) : l.foldr (· ^^^ ·) a = l.foldr (· ^^^ ·) 0 ^^^ a := by
  induction l with
  | nil => simp
  | cons x l ih => rw [List.foldr_cons, ih, List.foldr_cons, Nat.xor_assoc]

theorem irrepOf_append (irr l m : List ℕ) : irrepOf irr (l ++ m) = irrepOf irr l ^^^ irrepOf irr m := by
  unfold irrepOf; rw [List.map_append, List.foldr_append, foldr_xor]

theorem holes_succ (n r d : ℕ) : holes (n + 1) r d = (if r.testBit n && !d.testBit n then [n] else []) ++ holes n r d := by
  unfold holes
  rw [List.range_succ, List.reverse_append, List.reverse_singleton, List.singleton_append, List.filter_cons]
  split <;> rfl

/-- the irrep of the excitation is the product of the irreps of the two determinants -/
theorem irrepOf_excitation (irr : List ℕ) (n r d : ℕ) : irrepOf irr (holes n r d ++ holes n d r) = irrepOf irr (holes n r 0) ^^^ irrepOf irr (holes n d 0) := by
  rw [irrepOf_append]
  induction n with
  | zero => rfl
  | succ n ih =>
    rw [holes_succ, holes_succ, holes_succ, holes_succ, irrepOf_append, irrepOf_append, irrepOf_append, irrepOf_append]
    have e : irrepOf irr (holes n r d) = irrepOf irr (holes n r 0) ^^^ irrepOf irr (holes n d 0) ^^^ irrepOf irr (holes n d r) := by
      rw [← ih, Nat.xor_assoc, Nat.xor_self, Nat.xor_zero]
    rw [e]
    have e0 : irrepOf irr [] = 0 := rfl
    cases r.testBit n <;> cases d.testBit n <;> simp only [Bool.not_true, Bool.not_false, Bool.and_true, Bool.and_false, Nat.zero_testBit, if_true, Bool.false_eq_true, if_false, e0] <;>
      apply Nat.eq_of_testBit_eq <;> intro i <;> simp only [Nat.testBit_xor, Nat.zero_testBit] <;>
      cases (irrepOf irr [n]).testBit i <;> cases (irrepOf irr (holes n r 0)).testBit i <;> cases (irrepOf irr (holes n d 0)).testBit i <;>
      cases (irrepOf irr (holes n d r)).testBit i <;> rfl

/-- C86: if the requested irrep is that of the reference, the pool operators are the totally symmetric excitations -/
theorem C86_symmetric (k R : ℕ) (irr : List ℕ) (r I : ℕ) (hR : R < 2 ^ (2 * k)) (hI : I < 2 ^ (2 * k)) :
    Target k R irr (irrepOf irr (holes (2 * k) R 0)) (some (r : ℤ)) I ↔ Allowed k R irr r I := by
  unfold Target Allowed
  rw [irrepOf_excitation, Nat.xor_eq_zero_iff]
  constructor
  · rintro ⟨h1, h2, h3, h4⟩
    obtain ⟨he, hp⟩ := target_excit hR hI h2 h1
    exact ⟨h2, by rw [← he.rank]; exact hp, by exact_mod_cast h4 _ rfl, h3.symm⟩
  · rintro ⟨h1, h2, h3, h4⟩
    refine ⟨?_, h1, h4.symm, fun r' e => by cases e; exact_mod_cast h3⟩
    rintro rfl
    have : holes (2 * k) I I = [] := List.eq_nil_iff_forall_not_mem.2 fun p hp => by have := mem_holes.1 hp; rw [this.2.1] at this; simp at this
    rw [this] at h2
    simp at h2

/-- C86: for an aufbau reference in the requested irrep, the operators are those of `SQOpPool.fill_pool(rank)`, in the same order.  (For other
references `fill_pool` misses excitations, C49; the pool of SPQE does not.) -/
theorem C86_like_fill_pool (N : NextPerm) (o : DescSort) (P : SQOpPool) (k r : ℕ) (hr : 0 < r) (hn : P.nSpinorb = 2 * k) (hk : k ≤ 32) (hi : k ≤ P.orbIrreps.length)
    (ha : Aufbau k P.refInt) (hP : P.terms = []) (ref : List ℕ) (hO : Occ ref) (hl : ref.length = 2 * k) (hR : IsRefDet ref P.refInt) :
    ∃ Q N₀, buildPool o (2 * k) ref P.orbIrreps (irrepOf P.orbIrreps (holes (2 * k) P.refInt 0)) (some (r : ℤ)) = .ok Q ∧
      ∀ fuel, N₀ ≤ fuel → ∃ P', fillParticleHole N o fuel P r = .ok P' ∧ P'.terms.map Prod.snd = Q.elems.map Prod.snd := by
  classical
  obtain ⟨N₀, h⟩ := C49_complete_aufbau_partial N o P k r hn hk hi ha
  have hRlt : P.refInt < 2 ^ (2 * k) := by rw [← hl]; exact isRefDet_lt hR
  refine ⟨_, N₀, (C86_pool o k ref P.orbIrreps hO hl hk hi _ (some (r : ℤ)) P.refInt hR).1 (fun r' e => by cases e; omega), fun fuel hf => ⟨_, h fuel hf, ?_⟩⟩
  simp only [hP, List.nil_append, List.map_map]
  unfold targets
  have : ((List.range (2 ^ (2 * k))).filter fun I => decide (Target k P.refInt P.orbIrreps (irrepOf P.orbIrreps (holes (2 * k) P.refInt 0)) (some (r : ℤ)) I)) =
      (List.range (2 ^ (2 * k))).filter fun d => decide (Allowed k P.refInt P.orbIrreps r d) := by
    apply List.filter_congr
    intro I hI
    exact decide_eq_decide.2 (C86_symmetric k P.refInt P.orbIrreps r I hRlt (List.mem_range.1 hI))
  rw [this]
  rfl

/-- C86: H2 in a minimal basis with two different orbital symmetries: the only operator of the totally symmetric pool is the double excitation;
without symmetry there are three; a reference with one alpha electron in the second orbital has the excitation to the first. -/
theorem C86_example : (Occ [1, 1, 0, 0] ∧ IsRefDet [1, 1, 0, 0] 3) ∧ targets 2 3 [0, 1] 0 none = [12] ∧ targets 2 3 [0, 0] 0 none = [6, 9, 12] ∧
    targets 2 3 [0, 0] 0 (some 1) = [6, 9] ∧ IsRefDet [0, 0, 1, 0] 4 ∧ targets 2 4 [0, 0] 0 none = [1] := by
  have dec : ∀ (R irrep : ℕ) (irr : List ℕ) (rank : Option ℤ), targets 2 R irr irrep rank = (List.range (2 ^ 4)).filter fun I =>
      decide (I ≠ R) && decide (spinNum 0 2 R = spinNum 0 2 I) && decide (spinNum 1 2 R = spinNum 1 2 I) && decide (irrepOf irr (holes 4 I 0) = irrep) &&
        (rank.elim true fun r => decide (((holes 4 R I).length : ℤ) ≤ r)) := by
    intro R irrep irr rank
    classical
    unfold targets
    apply List.filter_congr
    intro I _
    rw [Bool.eq_iff_iff, decide_eq_true_iff]
    unfold Target SameSpin
    cases rank <;> simp [and_assoc]
  refine ⟨⟨by unfold Occ; decide, fun i => ?_⟩, ?_, ?_, ?_, fun i => ?_, ?_⟩
  · rcases i with _ | _ | _ | _ | i
    · rfl
    · rfl
    · rfl
    · rfl
    · rw [Nat.testBit_lt_two_pow (show 3 < 2 ^ (i + 1 + 1 + 1 + 1) by rw [pow_succ, pow_succ, pow_succ, pow_succ]; have := Nat.one_le_two_pow (n := i); omega)]; simp
  · rw [dec]; decide
  · rw [dec]; decide
  · rw [dec]; decide
  · rcases i with _ | _ | _ | _ | i
    · rfl
    · rfl
    · rfl
    · rfl
    · rw [Nat.testBit_lt_two_pow (show 4 < 2 ^ (i + 1 + 1 + 1 + 1) by rw [pow_succ, pow_succ, pow_succ, pow_succ]; have := Nat.one_le_two_pow (n := i); omega)]; simp
  · rw [dec]; decide

end Spqe
end QF
