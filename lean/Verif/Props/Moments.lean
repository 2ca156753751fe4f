import Verif.Model.Moments
import Verif.Props.SpqeEstimate

/-!
C95: the moment corrections and the single-particle energies.
-/
namespace QF

open SQOperator (DescSort)
open QubitOperator (SortOracle)
open SQOpPool

namespace Moments
open Spqe

/-- the Moller-Plesset denominator of the excitation from `occ` to `vir` -/
noncomputable def mpDenom (orbE : List ℂ) (occ vir : List ℕ) : ℂ := (occ.map fun p => orbE.getD p 0).sum - (vir.map fun p => orbE.getD p 0).sum

theorem getAll {orbE : List ℂ} {l : List ℕ} (h : ∀ p ∈ l, p < orbE.length) : l.mapM (pyIndex orbE) = .ok (l.map fun p => orbE.getD p 0) :=
  mapM_ok _ _ _ fun p hp => by
    unfold pyIndex
    rw [List.getElem?_eq_getElem (h p hp), List.getD_eq_getElem _ _ (h p hp)]

theorem sum_getD_reverse (f : ℕ → ℂ) (l : List ℕ) : (l.reverse.map f).sum = (l.map f).sum := by
  rw [List.map_reverse, List.sum_reverse]

theorem momentStep_spec (o : DescSort) {k : ℕ} {ref irr : List ℕ} (hO : Occ ref) (hl : ref.length = 2 * k) (hk : k ≤ 32) (hi : k ≤ irr.length) (orbE : List ℂ) (hE : 2 * k ≤ orbE.length) (max : ℕ)
    {R : ℕ} (hR : IsRefDet ref R) {I : ℕ} (hI : I < 2 ^ (2 * k)) (S : Space) :
    momentStep o ref irr orbE max S I = .ok (open Classical in if I ≠ R ∧ SameSpin k R I ∧ irrepOf irr (holes (2 * k) I 0) = 0 ∧ (holes (2 * k) R I).length ≤ max then
      { pool := S.pool ++ [(0, excTerms (holes (2 * k) I R) (holes (2 * k) R I))], mpdenom := S.mpdenom ++ [mpDenom orbE (holes (2 * k) R I) (holes (2 * k) I R)], indices := S.indices ++ [I] } else S) := by
  have hRlt : R < 2 ^ (2 * k) := by rw [← hl]; exact isRefDet_lt hR
  have hRi : refInt ref = R := isRefDet_unique (refInt_isRefDet hO) hR
  have hx : refInt ref ^^^ I < 2 ^ ref.length := by rw [hRi, hl]; exact Nat.xor_lt_two_pow hRlt hI
  have hIa : I &&& maskAlpha < 2 ^ (2 * k) := lt_of_le_of_lt Nat.and_le_left hI
  have hIb : I &&& maskBeta < 2 ^ (2 * k) := lt_of_le_of_lt Nat.and_le_left hI
  have sa : (binDigits (I &&& maskAlpha)).sum = spinNum 0 k I := by
    rw [binDigits_sum hIa, filter_mask maskAlpha_bit (by omega), filter_spin (by omega)]
  have sb : (binDigits (I &&& maskBeta)).sum = spinNum 1 k I := by
    rw [binDigits_sum hIb, filter_mask maskBeta_bit (by omega), filter_spin (by omega)]
  unfold momentStep
  simp only [sa, sb, spinCount_eq hO hl hR (show 0 < 2 by omega), spinCount_eq hO hl hR (show 1 < 2 by omega)]
  by_cases hs : SameSpin k R I
  · rw [if_pos ⟨hs.1.symm, hs.2.symm⟩]
    have pa : setPositions (binDigits (I &&& maskAlpha)) = (List.range (2 * k)).reverse.filter fun p => I.testBit p && decide (p % 2 = 0) := by
      rw [positions_eq hIa, List.filter_reverse, List.filter_reverse, filter_mask maskAlpha_bit (by omega)]
    have pb : setPositions (binDigits (I &&& maskBeta)) = (List.range (2 * k)).reverse.filter fun p => I.testBit p && decide (p % 2 = 1) := by
      rw [positions_eq hIb, List.filter_reverse, List.filter_reverse, filter_mask maskBeta_bit (by omega)]
    have hperm := occ_perm (N := 2 * k) (I := I)
    rw [← pa, ← pb] at hperm
    have hb : ∀ i ∈ holes (2 * k) I 0, i / 2 < irr.length := by
      intro i hm
      rw [mem_holes] at hm
      omega
    have hv : findIrrep irr (setPositions (binDigits (I &&& maskAlpha)) ++ setPositions (binDigits (I &&& maskBeta))) = .ok (irrepOf irr (holes (2 * k) I 0)) := by
      rw [C45_perm irr _ _ (fun i hm => hb i (hperm.mem_iff.1 hm)) hperm, C45_value irr _ hb]; rfl
    rw [hv, except_ok_bind]
    by_cases hz : irrepOf irr (holes (2 * k) I 0) = 0
    · rw [if_pos hz]
      have hln := sameSpin_length hs
      have hc : (binDigits (refInt ref ^^^ I)).count 1 / 2 = (holes (2 * k) R I).length := by
        rw [binDigits_count hx, hl, hRi, xor_count, ← hln]; omega
      rw [hc]
      by_cases hne : I = R
      · rw [if_neg, if_neg (fun h => h.1 hne)]; · rfl
        rintro ⟨h, _⟩
        exact h (binDigits_zero.2 (by rw [hRi, hne, Nat.xor_self]))
      · have hx0 : refInt ref ^^^ I ≠ 0 := by rw [hRi]; intro h; exact hne (Nat.xor_eq_zero_iff.1 h).symm
        have hd0 : binDigits (refInt ref ^^^ I) ≠ [0] := fun h => hx0 (binDigits_zero.1 h)
        by_cases hm : (holes (2 * k) R I).length ≤ max
        · rw [if_pos ⟨hd0, hm⟩, if_pos ⟨hne, hs, hz, hm⟩, excitPos_eq hx0 hx, excitPos_eq hx0 hx, except_ok_bind, except_ok_bind]
          have e1 : ((List.range ref.length).filter fun i => (refInt ref ^^^ I).testBit i && decide (ref.getD i 0 = 1)) = (holes (2 * k) R I).reverse := by
            rw [holes_reverse, hl]
            apply List.filter_congr
            intro p _
            rw [hRi, Nat.testBit_xor, ← hR p]
            cases R.testBit p <;> cases I.testBit p <;> rfl
          have e0 : ((List.range ref.length).filter fun i => (refInt ref ^^^ I).testBit i && decide (ref.getD i 0 = 0)) = (holes (2 * k) I R).reverse := by
            rw [holes_reverse, hl]
            apply List.filter_congr
            intro p hp
            have hp' : p < ref.length := by rw [hl]; exact List.mem_range.1 hp
            have h01 := hO ref[p] (List.getElem_mem hp')
            have hRp := hR p
            rw [hRi, Nat.testBit_xor, hRp, List.getD_eq_getElem _ _ hp']
            rcases h01 with e | e <;> rw [e] <;> cases I.testBit p <;> rfl
          rw [e1, e0, List.reverse_reverse, List.reverse_reverse]
          have hpos : 0 < (holes (2 * k) R I).length := by have := holes_ne hRlt hI hne; omega
          have hne' : holes (2 * k) I R ≠ holes (2 * k) R I := by
            intro e
            obtain ⟨p, hp⟩ := List.exists_mem_of_length_pos hpos
            have h1 := mem_holes.1 hp
            rw [← e] at hp
            have h2 := mem_holes.1 hp
            rw [h1.2.1] at h2
            exact absurd h2.2.2 (by simp)
          rw [simplify_exc o _ ?_ (holes_desc _ _ _) (holes_desc _ _ _) hne' ?_]
          · rw [except_ok_bind, getAll, except_ok_bind, getAll, except_ok_bind, sum_getD_reverse, sum_getD_reverse]
            · rfl
            · intro p hp; have := mem_holes.1 (List.mem_reverse.1 hp); omega
            · intro p hp; have := mem_holes.1 (List.mem_reverse.1 hp); omega
          · intro t ht
            simp only [SQOperator.addTerm, List.nil_append, List.mem_append, List.mem_singleton] at ht
            rcases ht with rfl | rfl
            · exact ⟨List.nodup_reverse.2 (holes_nodup _ _ _), List.nodup_reverse.2 (holes_nodup _ _ _)⟩
            · exact ⟨holes_nodup _ _ _, holes_nodup _ _ _⟩
          · simp only [SQOperator.op, SQOperator.addTerm, List.nil_append, List.map_append, List.map_cons, List.map_nil, List.sum_append, List.sum_cons, List.sum_nil, add_zero, one_smul]
            rw [fermiString_reverse (holes_nodup _ _ _) (holes_nodup _ _ _) hln.symm]
            exact op_sub₁ _ _
        · rw [if_neg (fun h => hm h.2), if_neg (fun h => hm h.2.2.2)]; rfl
    · rw [if_neg hz, if_neg (fun h => hz h.2.2.1)]; rfl
  · rw [if_neg (fun h => hs ⟨h.1.symm, h.2.symm⟩), if_neg (fun h => hs h.2.1)]; rfl

end Moments
end QF
