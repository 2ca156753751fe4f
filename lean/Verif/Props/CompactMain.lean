import Verif.Props.Compact

/-!
C61: consequences for sorted lists, opposite orders, and argument errors.
-/
namespace QF

theorem asc_desc {l : List ℕ} (h : l.Pairwise (· > ·)) : asc l = 0 := by
  induction l with
  | nil => rfl
  | cons a l ih =>
    rw [List.pairwise_cons] at h
    rw [asc, ih h.2, List.countP_eq_zero.2]
    intro x hx
    have := h.1 x hx
    simp; omega

theorem asc_asc {l : List ℕ} (h : l.Pairwise (· < ·)) : asc l = l.length.choose 2 := by
  induction l with
  | nil => rfl
  | cons a l ih =>
    rw [List.pairwise_cons] at h
    have hch : (l.length + 1).choose 2 = l.length + l.length.choose 2 := by
      rw [Nat.choose_succ_succ' l.length 1, Nat.choose_one_right]
    rw [asc, ih h.2, List.countP_eq_length.2, List.length_cons, hch]
    intro x hx
    simpa using h.1 x hx

/-- When both index lists are decreasing (as in the operator pools), or both increasing, the circuit is exactly
`exp(θ (t - t†))`, for fermionic and qubit excitations. -/
theorem C61_sorted (θ : ℝ) (cre ann : List ℕ) (h : (cre ++ ann).Nodup) (hlen : cre.length = ann.length) (hne : cre ≠ []) (q : Bool)
    (hs : (cre.Pairwise (· > ·) ∧ ann.Pairwise (· > ·)) ∨ (cre.Pairwise (· < ·) ∧ ann.Pairwise (· < ·))) :
    ∃ C, compactExcitationCircuit θ cre ann q = .ok C ∧ (∀ g ∈ C, ApiGate g) ∧ (∀ n, (∀ p ∈ cre ++ ann, p < n) → C.Fits n) ∧
      IsExp ((θ : ℂ) • kappa q cre ann) C.op := by
  obtain ⟨C, h1, h2, h3, h4⟩ := C61_disjoint θ cre ann h hlen hne q
  refine ⟨C, h1, h2, h3, ?_⟩
  have e : ((-1 : ℝ) ^ (asc cre + asc ann)) = 1 := by
    rcases hs with ⟨a, b⟩ | ⟨a, b⟩
    · rw [asc_desc a, asc_desc b]; simp
    · rw [asc_asc a, asc_asc b, hlen, ← two_mul, pow_mul]; simp
  rw [e] at h4
  simpa using h4

/-- qubit excitations: exactly `exp(θ (Q - Q†))` in every order of the indices -/
theorem C61_qubit (θ : ℝ) (cre ann : List ℕ) (h : (cre ++ ann).Nodup) (hlen : cre.length = ann.length) (hne : cre ≠ []) :
    ∃ C, compactExcitationCircuit θ cre ann true = .ok C ∧ IsExp ((θ : ℂ) • (qubitString cre ann - qubitString ann.reverse cre.reverse)) C.op := by
  obtain ⟨C, h1, _, _, h4⟩ := C61_disjoint θ cre ann h hlen hne true
  refine ⟨C, h1, ?_⟩
  simpa [kappa] using h4

theorem kappa_ne_zero {cre ann : List ℕ} (h : (cre ++ ann).Nodup) (hne : cre ≠ []) : kappa false cre ann ≠ 0 := by
  intro h0
  have hc := List.nodup_append.1 h
  have hr : Reached cre ann (flipAll cre 0) := by
    constructor
    · intro p hp; rw [testBit_flipAll hc.1]; simp [hp]
    · intro p hp
      have : p ∉ cre := fun hx => hc.2.2 p hx p hp rfl
      rw [testBit_flipAll hc.1]; simp [this]
  have hn : ¬ Reached cre ann (flipAll (cre ++ ann) (flipAll cre 0)) := by
    rw [reached_flip h]
    rintro ⟨h1, _⟩
    obtain ⟨c, cs, rfl⟩ := List.exists_cons_of_ne_nil hne
    have := h1 c (by simp)
    rw [hr.1 c (by simp)] at this
    cases this
  have := congrArg (fun A : Op => A (fun _ => 1) (flipAll cre 0)) h0
  simp only [kappa, Bool.false_eq_true, if_false, LinearMap.sub_apply, Pi.sub_apply, LinearMap.zero_apply, Pi.zero_apply,
    (strings_apply h _ _).1, (strings_apply h _ _).2.1, if_pos hr, if_neg hn, mul_one, sub_zero] at this
  have h1 := lsign_sq (caList cre ann) (flipAll cre 0)
  rw [this] at h1
  simp at h1

/-- Fermionic excitations whose lists have an odd number of ascending pairs: the circuit is `exp(-θ (t - t†))`, and it is
not the documented `exp(θ (t - t†))` unless `sin θ = 0`. -/
theorem C61_order_refuted (θ : ℝ) (hθ : Real.sin θ ≠ 0) (cre ann : List ℕ) (h : (cre ++ ann).Nodup) (hlen : cre.length = ann.length)
    (hne : cre ≠ []) (hodd : Odd (asc cre + asc ann)) :
    ∃ C, compactExcitationCircuit θ cre ann false = .ok C ∧ IsExp (((-θ : ℝ) : ℂ) • kappa false cre ann) C.op ∧
      ¬ IsExp ((θ : ℂ) • kappa false cre ann) C.op := by
  obtain ⟨C, h1, _, _, h4⟩ := C61_disjoint θ cre ann h hlen hne false
  have e : ((-1 : ℝ) ^ (asc cre + asc ann)) = -1 := hodd.neg_one_pow
  simp only [Bool.false_eq_true, if_false, e, neg_one_mul] at h4
  refine ⟨C, h1, h4, fun hp => ?_⟩
  have hV : ∀ I, Reached cre ann I → ¬ Reached cre ann (flipAll (cre ++ ann) I) := by
    intro I hI hI'
    rw [reached_flip h] at hI'
    obtain ⟨c, cs, rfl⟩ := List.exists_cons_of_ne_nil hne
    have := hI.1 c (by simp)
    rw [hI'.1 c (by simp)] at this
    cases this
  have hcub := (excite_powers (flipAll_flipAll h) (lsign_sq (caList cre ann)) hV (fun ψ I => (strings_apply h ψ I).1)
    (fun ψ I => (strings_apply h ψ I).2.1)).2.2
  have hk : kappa false cre ann = fermiString cre ann - fermiString ann.reverse cre.reverse := by simp [kappa]
  rw [← hk] at hcub
  exact kappa_ne_zero h hne (exp_sign_differ hcub hθ hp h4)

/-- the hypotheses of the refutation are met, e.g. by `compact_excitation_circuit(θ, [2, 3], [1, 0], False)` -/
theorem C61_order_example : ([2, 3] ++ [1, 0] : List ℕ).Nodup ∧ Odd (asc [2, 3] + asc [1, 0]) := by decide

/-- unequal numbers of creators and annihilators, two shared indices, or no indices: an exception -/
theorem C61_errors (θ : ℂ) (q : Bool) :
    (∀ cre ann : List ℕ, cre.length ≠ ann.length → compactExcitationCircuit θ cre ann q = .error .valueError) ∧
    (∀ (cre ann : List ℕ) (x y : ℕ), cre.length = ann.length → x ≠ y → x ∈ cre → y ∈ cre → x ∈ ann → y ∈ ann →
      compactExcitationCircuit θ cre ann q = .error .valueError) ∧
    (compactExcitationCircuit θ [] [] q = .error (if q then .indexError else .valueError)) := by
  refine ⟨?_, ?_, ?_⟩
  · intro cre ann h; unfold compactExcitationCircuit; rw [if_pos h]
  · intro cre ann x y hl hxy hx hy hx' hy'
    unfold compactExcitationCircuit
    rw [if_neg (not_not.2 hl)]
    have : 1 < (cre.filter (· ∈ ann)).dedup.length := by
      have hsub : [x, y] ⊆ (cre.filter (· ∈ ann)).dedup := by
        intro z hz
        rw [List.mem_dedup, List.mem_filter]
        simp only [List.mem_cons, List.not_mem_nil, or_false] at hz
        rcases hz with rfl | rfl
        · exact ⟨hx, by simpa using hx'⟩
        · exact ⟨hy, by simpa using hy'⟩
      have hnd : [x, y].Nodup := by simp [hxy]
      have := (List.subperm_of_subset hnd hsub).length_le
      exact this
    simp only
    rw [if_pos this]
  · cases q
    · rfl
    · rfl

end QF
