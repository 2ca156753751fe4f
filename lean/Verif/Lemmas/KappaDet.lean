import Verif.Lemmas.Skew
import Verif.Lemmas.CompactSign
import Verif.Spec.Compact

/-! The action of an excitation on a determinant. -/
namespace QF

theorem kappa_det (q : Bool) {c a : List ℕ} (hd : (c ++ a).Nodup) (ha0 : a ≠ []) {R : ℕ} (ha : ∀ p ∈ a, R.testBit p = true) (hc : ∀ p ∈ c, R.testBit p = false) :
    ∃ s : ℂ, (s = 1 ∨ s = -1) ∧ kappa q c a (Pi.single R 1) = s • (Pi.single (flipAll (c ++ a) R) 1 : St) := by
  set J := flipAll (c ++ a) R with hJ
  have hbit := testBit_flipAll hd R
  rw [← hJ] at hbit
  have hl : (((caList c a).map Prod.snd)).Nodup := by rw [caList_snd]; exact hd
  have hl' : (((caList a.reverse c.reverse).map Prod.snd)).Nodup := by
    rw [caList_snd, ← List.reverse_append]; exact List.nodup_reverse.2 hd
  have hv : lvalid (caList c a) J = true := by
    rw [lvalid_nodup _ hl]
    intro x hx
    rcases List.mem_append.1 hx with hx | hx <;> obtain ⟨p, hp, rfl⟩ := List.mem_map.1 hx
    · simp [hbit, hc p hp, hp]
    · simp [hbit, ha p hp, hp]
  have hv' : lvalid (caList a.reverse c.reverse) J = false := by
    obtain ⟨p, hp⟩ := List.exists_mem_of_ne_nil a ha0
    rw [Bool.eq_false_iff]
    intro h
    rw [lvalid_nodup _ hl'] at h
    have := h (true, p) (List.mem_append_left _ (List.mem_map.2 ⟨p, by simpa using hp, rfl⟩))
    simp [hbit, ha p hp, hp] at this
  have hf : ∀ I, lflip (caList c a) I = flipAll (c ++ a) I := fun I => by rw [lflip_nodup _ hl, caList_snd]
  have hf' : ∀ I, lflip (caList a.reverse c.reverse) I = flipAll (c ++ a) I := fun I => by
    rw [lflip_nodup _ hl', caList_snd]
    exact flipAll_congr (by rw [← List.reverse_append]; exact List.nodup_reverse.2 hd) hd (by intro q; simp; tauto) I
  have hne : ∀ I, I ≠ J → (Pi.single R 1 : St) (flipAll (c ++ a) I) = 0 := by
    intro I hI
    rw [Pi.single_eq_of_ne]
    intro e
    apply hI
    rw [hJ, ← e, flipAll_flipAll hd]
  have hself : (Pi.single R 1 : St) (flipAll (c ++ a) J) = 1 := by rw [hJ, flipAll_flipAll hd, Pi.single_eq_same]
  cases q
  · refine ⟨lsign (caList c a) J, ?_, ?_⟩
    · exact mul_self_eq_one_iff.1 (lsign_sq _ _)
    · funext I
      simp only [kappa, Bool.false_eq_true, if_false, LinearMap.sub_apply, Pi.sub_apply, Pi.smul_apply, smul_eq_mul]
      rw [fermiString_eq, fermiString_eq, ladders_apply, ladders_apply, hf, hf']
      by_cases hI : I = J
      · subst hI; rw [hv, hv', hself]; simp
      · rw [hne I hI, Pi.single_eq_of_ne hI]; simp
  · refine ⟨1, .inl rfl, ?_⟩
    funext I
    simp only [kappa, if_true, LinearMap.sub_apply, Pi.sub_apply, Pi.smul_apply, smul_eq_mul]
    rw [qubitString_eq, qubitString_eq, qladders_apply, qladders_apply, hf, hf']
    by_cases hI : I = J
    · subst hI; rw [hv, hv', hself]; simp
    · rw [hne I hI, Pi.single_eq_of_ne hI]; simp

end QF
