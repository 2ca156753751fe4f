import Verif.Props.TaperFinal

/-! C67: the theorems about `taper_operator`. -/
namespace QF

theorem op_eq_opLR_canonical {A : QubitOperator} (h : ∀ t ∈ A, t.2.Canonical) : A.op = A.opLR := by
  unfold QubitOperator.op QubitOperator.opLR
  congr 1
  apply List.map_congr_left
  intro t ht
  rw [(h t ht).op_eq]

namespace Taper

/-- C67: for every operator commuting with the generators of `find_Z2_symmetries` and every choice of signs, `taper_operator`
returns an operator on the remaining qubits that acts as the given one on the chosen symmetry sector, except for the terms below the
thresholds: `D` is the part of the operator dropped by the two products and `E` the part dropped at the end. -/
theorem C67_taper (o : SQOperator.DescSort) (H : QubitOperator) (hH : ∀ t ∈ H, t.2.Canonical) (least : Bool)
    (hx : ∀ c, IsXSymmetry H c → c = []) : ∃ N, ∀ fuel ≥ N, ∀ S, findZ2 o fuel H least = .ok S → S.generators.length ≤ 79 →
    ∀ A : QubitOperator, A.IsPauli → (∀ g ∈ S.generators, Commute A.opLR g.opLR) →
    ∀ sign : List ℤ, sign.length = S.sigmaX.length → (∀ s ∈ sign, s = 1 ∨ s = -1) →
    ∃ R K D E : QubitOperator, taperOperator S.sigmaX sign A S.unitary = .ok R ∧ R.Normal ∧ A.opLR = K.opLR + D.opLR ∧
      (∀ t ∈ K ++ D, t.2.Canonical) ∧ ((K ++ D).map Prod.snd).Nodup ∧
      (∀ t ∈ K, 1e-12 * Real.sqrt 2 ^ S.generators.length < ‖t.1‖) ∧ (∀ t ∈ D, ‖t.1‖ ≤ 1e-12 * Real.sqrt 2 ^ S.generators.length) ∧
      QubitOperator.Negligible E ∧
      ∀ φ, K.op (S.unitary.op (untaper S.sigmaX sign φ)) = S.unitary.op (untaper S.sigmaX sign (R.op φ + E.op φ)) := by
  refine ⟨2 * H.numQubits + 1, fun fuel hf S hS h79 A hA hcomm sign hl hs => ?_⟩
  obtain ⟨sg, tp, ch, sp⟩ := findZ2_full o H hH least hx hf hS h79
  obtain ⟨f1, f2⟩ := pairs_facts sg tp
  set l := S.generators.zip S.sigmaX with hlz
  set P := ((l.map opPair).map hadPair).prod with hP
  set k := S.generators.length with hkk
  have ha : ∀ t ∈ l, t.1.Canonical ∧ AntiPair (opPair t) := fun t ht => ⟨(f1 t ht).1, (f1 t ht).2.1⟩
  -- the operator as it is simplified
  obtain ⟨A', D0, eA, opA, nA, cD0, ndA, bA, bD0, _⟩ := C20_simplify A hA
  have can' : ∀ t ∈ A' ++ D0, t.2.Canonical := by
    intro t ht
    rcases List.mem_append.1 ht with h | h
    · exact nA.canonical t h
    · exact cD0 t h
  have cterm : ∀ t ∈ A', ∀ g ∈ S.generators, Commute t.2.opLR g.opLR := by
    intro t ht g hg
    refine term_commute can' ndA (sg.symmetry g hg).canonical (by rw [opLR_qappend, ← opA]; exact hcomm g hg) t (by simp [ht]) ?_
    intro h0
    have := bA t ht
    rw [h0] at this; norm_num at this
  obtain ⟨B, eB, hB, opB⟩ := product_left (Normal.nodup nA) nA.canonical cterm ch sp
  set K : QubitOperator := A'.filter fun t => decide (1e-12 < ‖t.1‖ * rho ^ k) with hK
  set D : QubitOperator := (A'.filter fun t => !decide (1e-12 < ‖t.1‖ * rho ^ k)) ++ D0 with hD
  have hperm : (K ++ D).Perm (A' ++ D0) := by
    rw [hK, hD, ← List.append_assoc]
    exact (List.filter_append_perm _ A').append_right D0
  have ndK : (K.map Prod.snd).Nodup := (Normal.nodup nA).sublist ((List.filter_sublist).map _)
  have cK : ∀ t ∈ K, t.2.Canonical := fun t ht => nA.canonical t (List.mem_filter.1 ht).1
  have bK : ∀ t ∈ K, 1e-12 < ‖t.1‖ * rho ^ k := fun t ht => by simpa using (List.mem_filter.1 ht).2
  obtain ⟨T, eT, opT, hT⟩ := product_right ndK cK bK h79 ha f2
    (fun t ht p hp => cterm t (List.mem_filter.1 ht).1 p.1 (List.of_mem_zip hp).1) ch hB opB
  -- the tapered terms
  have made : ∀ t ∈ T, MadeXYZ t.2 ∧ ∀ g ∈ t.2, g.target ∈ S.sigmaX → g.label = "X" := by
    intro t ht
    refine ⟨(hT t ht).1.gates, fun g hg hm => ?_⟩
    obtain ⟨i, hi, ei⟩ := List.getElem_of_mem hm
    have hi' : i < S.generators.length := by rw [← tp.length]; exact hi
    have hmem : (S.generators[i], S.sigmaX[i]) ∈ l := by
      have := List.getElem_zip (l := S.generators) (l' := S.sigmaX) (i := i) (h := by rw [List.length_zip]; omega)
      rw [hlz, ← this]; exact List.getElem_mem _
    have hc := (hT t ht).2 _ hmem
    simp only [ei] at hc
    have := eps_of_commute (hT t ht).1 (m := "X") (.inl rfl) (q := g.target) (by rw [pauliL_X]; exact hc.symm)
    rw [letterAt_mem (hT t ht).1 hg] at this
    unfold eps at this
    split_ifs at this with h
    · rcases h with h | h
      · have hxyz := ((hT t ht).1.gates g hg).1
        rw [h] at hxyz
        exact absurd hxyz (by decide)
      · exact h
    · norm_num at this
  obtain ⟨R', eR', hR', opR'⟩ := taper_terms tp.descending hl hs T [] made
  obtain ⟨R, E, eR, opR, nR, cE, ndE, _, bE, _⟩ := C20_simplify R' hR'
  refine ⟨R, K, D, E, ?_, nR, ?_, ?_, ?_, ?_, ?_, ?_, ?_⟩
  · unfold taperOperator
    rw [if_neg (by
      rw [not_not, List.all_eq_true]
      intro i hi
      simpa using hs i hi), if_neg (by rw [not_not]; exact hl)]
    simp only [addOp_nil, except_ok_bind]
    have e1 : A.operatorProduct S.unitary true true = .ok B := by
      unfold QubitOperator.operatorProduct
      rw [if_pos rfl, eA, except_ok_bind, if_pos rfl, eB]
    simp only [pure, Except.pure, except_ok_bind] at eR' ⊢
    rw [e1, except_ok_bind, eT, except_ok_bind, eR', except_ok_bind, List.nil_append, eR]
  · rw [opA, ← opLR_qappend, ← opLR_perm hperm, opLR_qappend]
  · intro t ht; exact can' t (hperm.mem_iff.1 ht)
  · exact ((hperm.map Prod.snd).nodup_iff).2 ndA
  · intro t ht; exact (rho_bound _ _).1 (bK t ht)
  · intro t ht
    rcases List.mem_append.1 ht with h | h
    · have := (List.mem_filter.1 h).2
      have h2 : ¬ 1e-12 < ‖t.1‖ * rho ^ k := by simpa using this
      rw [rho_bound] at h2
      exact not_lt.1 h2
    · refine (bD0 t h).trans ?_
      have : 1 ≤ Real.sqrt 2 ^ k := one_le_pow₀ (by rw [show (1 : ℝ) = Real.sqrt 1 by simp]; exact Real.sqrt_le_sqrt (by norm_num))
      nlinarith
  · exact ⟨ndE.sublist ((List.sublist_append_right R E).map _), fun t ht => ⟨cE t ht, bE t ht⟩⟩
  · intro φ
    obtain ⟨p1, _, _⟩ := pairs_prod (l.map opPair) (by
      intro u hu
      obtain ⟨v, hv, rfl⟩ := List.mem_map.1 hu
      exact (ha v hv).2) (List.pairwise_map.2 f2)
    have h1 := opR' φ
    rw [opT, opR] at h1
    rw [op_eq_opLR_canonical cK, op_eq_opLR_canonical nR.canonical, op_eq_opLR_canonical cE, chain_op ch]
    simp only [Module.End.mul_apply, LinearMap.add_apply] at h1
    rw [← h1, ← Module.End.mul_apply P P, p1, Module.End.one_apply]

/-- the index with a zero bit inserted at position `q` -/
def insertBit (J q : ℕ) : ℕ := J % 2 ^ q + 2 ^ (q + 1) * (J / 2 ^ q)

theorem testBit_insertBit (J q j : ℕ) : (insertBit J q).testBit j = if j < q then J.testBit j else if j = q then false else J.testBit (j - 1) := by
  unfold insertBit
  have hlt : J % 2 ^ q < 2 ^ (q + 1) := lt_of_lt_of_le (Nat.mod_lt _ (by positivity)) (Nat.pow_le_pow_right (by norm_num) (by omega))
  rw [add_comm, Nat.testBit_two_pow_mul_add _ hlt]
  split_ifs with h1 h2 h3
  · rw [Nat.testBit_mod_two_pow]; simp [h2]
  · rw [Nat.testBit_mod_two_pow]; simp [h2]
  · omega
  · omega
  · omega
  · rw [Nat.testBit_div_two_pow]; congr 1; omega

theorem sgnAt_drop {sig : List ℕ} {sign : List ℤ} {a : ℕ} (h : ∀ s ∈ sig, s < a) (I : ℕ) : sgnAt sig sign (dropBit I a) = sgnAt sig sign I := by
  unfold sgnAt
  congr 1
  apply List.map_congr_left
  intro t ht
  rw [testBit_dropBit, if_pos (h _ (List.of_mem_zip ht).1)]

/-- every joint eigenvector of the X gates is an untapered state -/
theorem untaper_surj : ∀ (sig : List ℕ) (sign : List ℤ), sig.Pairwise (· > ·) → sign.length = sig.length → (∀ s ∈ sign, s = 1 ∨ s = -1) → ∀ ψ : St,
    (∀ i < sig.length, opX (sig.getD i 0) ψ = (sign.getD i 0 : ℂ) • ψ) → ∃ φ, ψ = untaper sig sign φ
  | [], sign, _, _, _, ψ, _ => ⟨ψ, by funext I; simp [untaper, compress]⟩
  | a :: sig, [], _, hl, _, _, _ => by simp at hl
  | a :: sig, s :: sign, hp, hl, hs, ψ, h => by
    rw [List.pairwise_cons] at hp
    set ψ' : St := fun J => ψ (insertBit J a) with hψ'
    obtain ⟨φ, e⟩ := untaper_surj sig sign hp.2 (by simpa using hl) (fun x hx => hs x (by simp [hx])) ψ' (by
      intro i hi
      have h1 := h (i + 1) (by simpa using hi)
      simp only [List.getD_cons_succ] at h1
      funext J
      have h2 := congrFun h1 (insertBit J a)
      have hlt : sig.getD i 0 < a := by rw [List.getD_eq_getElem _ _ hi]; exact hp.1 _ (List.getElem_mem _)
      rw [opX_apply, Pi.smul_apply] at h2 ⊢
      simp only [hψ']
      rw [← h2]
      congr 1
      apply Nat.eq_of_testBit_eq; intro j
      simp only [testBit_insertBit, testBit_flipBit]
      split_ifs <;> first | rfl | omega)
    refine ⟨φ, ?_⟩
    funext I
    have h0 := h 0 (by simp)
    simp only [List.getD_cons_zero] at h0
    have hI := congrFun h0 (flipBit I a)
    rw [opX_apply, flipBit_flipBit, Pi.smul_apply, smul_eq_mul] at hI
    have he : ψ' (dropBit I a) = sgnAt sig sign (dropBit I a) * φ (compress sig (dropBit I a)) := by rw [e]; rfl
    rw [sgnAt_drop hp.1] at he
    have h1 : untaper (a :: sig) (s :: sign) φ I = (if I.testBit a then (s : ℂ) else 1) * (sgnAt sig sign I * φ (compress sig (dropBit I a))) := by
      simp only [untaper, sgnAt, compress, List.zip_cons_cons, List.map_cons, List.prod_cons, List.foldl_cons]; ring
    rw [h1, ← he]
    simp only [hψ']
    cases hb : I.testBit a with
    | false =>
      have : insertBit (dropBit I a) a = I := by
        apply Nat.eq_of_testBit_eq; intro j
        simp only [testBit_insertBit, testBit_dropBit]
        split_ifs with h1 h2 h3
        · rfl
        · rw [h2, hb]
        · omega
        · congr 1; omega
      rw [this]; simp
    | true =>
      have : insertBit (dropBit I a) a = flipBit I a := by
        apply Nat.eq_of_testBit_eq; intro j
        simp only [testBit_insertBit, testBit_dropBit, testBit_flipBit]
        split_ifs with h1 h2 h3 h4 <;> first | omega | rfl | (simp [hb]) | (congr 1; omega)
      rw [this, hI]; simp

theorem untaper_inj : ∀ (sig : List ℕ) (sign : List ℤ), sig.Pairwise (· > ·) → ∀ φ φ' : St, untaper sig sign φ = untaper sig sign φ' → φ = φ'
  | [], sign, _, φ, φ', h => by
    funext I
    have := congrFun h I
    simpa [untaper, compress] using this
  | a :: sig, sign, hp, φ, φ', h => by
    rw [List.pairwise_cons] at hp
    apply untaper_inj sig sign.tail hp.2
    funext J
    have := congrFun h (insertBit J a)
    have hd : dropBit (insertBit J a) a = J := by
      apply Nat.eq_of_testBit_eq; intro j
      simp only [testBit_insertBit, testBit_dropBit]
      split_ifs <;> first | omega | rfl
    have hb : (insertBit J a).testBit a = false := by simp [testBit_insertBit]
    have h1 : ∀ χ : St, untaper (a :: sig) sign χ (insertBit J a) = untaper sig sign.tail χ J := by
      intro χ
      cases sign with
      | nil => simp [untaper, compress, hd]
      | cons s sign =>
        simp only [untaper, compress, List.zip_cons_cons, List.map_cons, List.prod_cons, List.foldl_cons, hd, hb, List.tail_cons]
        have := sgnAt_drop (sign := sign) hp.1 (insertBit J a)
        unfold sgnAt at this
        rw [hd] at this
        rw [← this]; simp
    rw [h1, h1] at this
    exact this

/-- C67: the states on which the tapered operator acts are exactly the symmetry sector selected by the signs, and each is represented
once. -/
theorem C67_sector (o : SQOperator.DescSort) (H : QubitOperator) (hH : ∀ t ∈ H, t.2.Canonical) (least : Bool)
    (hx : ∀ c, IsXSymmetry H c → c = []) : ∃ N, ∀ fuel ≥ N, ∀ S, findZ2 o fuel H least = .ok S → S.generators.length ≤ 79 →
    ∀ sign : List ℤ, sign.length = S.sigmaX.length → (∀ s ∈ sign, s = 1 ∨ s = -1) → ∀ ψ : St,
    (∀ i (hi : i < S.generators.length), (S.generators[i]).op ψ = (sign.getD i 0 : ℂ) • ψ) ↔ ∃! φ, ψ = S.unitary.op (untaper S.sigmaX sign φ) := by
  obtain ⟨N, hU⟩ := C66_unitary o H hH least hx
  obtain ⟨N', hPr⟩ := C56_pairs o H hH least hx
  refine ⟨N + N', fun fuel hf S hS h79 sign hl hs ψ => ?_⟩
  obtain ⟨u1, _, u3⟩ := hU fuel (by omega) S hS h79
  have tp := hPr fuel (by omega) S hS
  set U := S.unitary.op with hUdef
  have uu : ∀ χ, U (U χ) = χ := fun χ => by rw [← Module.End.mul_apply, u1, Module.End.one_apply]
  have swap : ∀ i (hi : i < S.generators.length) (χ : St), (S.generators[i]).op (U χ) = U (opX (S.sigmaX.getD i 0) χ) := by
    intro i hi χ
    rw [← u3 i hi]
    simp only [Module.End.mul_apply]
    rw [uu]
  constructor
  · intro h
    obtain ⟨φ, e⟩ := untaper_surj S.sigmaX sign tp.descending hl hs (U ψ) (by
      intro i hi
      have hi' : i < S.generators.length := by rw [← tp.length]; exact hi
      have := swap i hi' (U ψ)
      rw [uu, h i hi'] at this
      rw [← uu (opX _ (U ψ)), ← this, map_smul])
    refine ⟨φ, by simp only; rw [← e, uu], fun φ' h' => ?_⟩
    simp only at h'
    apply untaper_inj S.sigmaX sign tp.descending
    rw [← e, h', uu]
  · rintro ⟨φ, h, _⟩
    intro i hi
    rw [h, swap i hi, opX_untaper tp.descending hl hs (by rw [tp.length]; exact hi), map_smul]

/-- `taper_operator` refuses signs other than ±1 and lists of the wrong length -/
theorem C67_errors (sig : List ℕ) (sign : List ℤ) (A U : QubitOperator) (h : (∃ s ∈ sign, s ≠ 1 ∧ s ≠ -1) ∨ sign.length ≠ sig.length) :
    taperOperator sig sign A U = .error .valueError := by
  unfold taperOperator
  by_cases h1 : sign.all (fun i => decide (i = 1 ∨ i = -1)) = true
  · rw [if_neg (by rw [not_not]; exact h1)]
    have h2 : sign.length ≠ sig.length := by
      rcases h with ⟨s, hs, h1', h2'⟩ | h
      · rw [List.all_eq_true] at h1
        have := h1 s hs
        simp [h1', h2'] at this
      · exact h
    rw [if_pos h2]; rfl
  · rw [if_pos h1]; rfl

/-- the Hamiltonian itself commutes with the generators, so `C67_taper` applies to it -/
theorem C67_hamiltonian (o : SQOperator.DescSort) (H : QubitOperator) (hH : ∀ t ∈ H, t.2.Canonical) (least : Bool) : ∃ N, ∀ fuel ≥ N, ∀ S,
    findZ2 o fuel H least = .ok S → H.IsPauli ∧ ∀ g ∈ S.generators, Commute H.opLR g.opLR := by
  obtain ⟨N, h⟩ := C56_generators o H hH least
  refine ⟨N, fun fuel hf S hS => ⟨fun t ht => canonical_api (hH t ht), fun g hg => ?_⟩⟩
  rcases h fuel hf with ⟨e, _⟩ | ⟨S', e, sg, _⟩
  · rw [e] at hS; cases hS
  · rw [e] at hS; cases hS
    have hc := (sg.symmetry g hg).commute
    unfold QubitOperator.opLR
    have : ∀ L : QubitOperator, (∀ t ∈ L, t ∈ H) → Commute (L.map fun t => t.1 • t.2.opLR).sum g.opLR := by
      intro L
      induction L with
      | nil => intro _; exact Commute.zero_left _
      | cons t L ih =>
        intro hL
        rw [List.map_cons, List.sum_cons]
        exact (Commute.smul_left (hc t (hL t (by simp))) _).add_left (ih fun u hu => hL u (by simp [hu]))
    exact this H fun _ h => h

/-- C67 on `Z₀ + Z₁ + X₀ X₁` with sign -1: tapering succeeds and the result acts as the Hamiltonian on the odd sector -/
theorem C67_example (o : SQOperator.DescSort) (least : Bool) : ∃ N, ∀ fuel ≥ N, ∃ S, findZ2 o fuel isingH least = .ok S ∧ S.generators ≠ [] ∧
    ∃ R, taperOperator S.sigmaX (S.sigmaX.map fun _ => -1) isingH S.unitary = .ok R := by
  obtain ⟨N1, h1⟩ := C66_example o least
  obtain ⟨N2, h2⟩ := C67_hamiltonian o isingH ising_canonical least
  obtain ⟨N3, h3⟩ := C67_taper o isingH ising_canonical least ising_no_x
  obtain ⟨N4, h4⟩ := C66_small o isingH ising_canonical least ising_no_x
  refine ⟨N1 + N2 + N3 + N4, fun fuel hf => ?_⟩
  obtain ⟨S, e, hne, _⟩ := h1 fuel (by omega)
  obtain ⟨hp, hc⟩ := h2 fuel (by omega) S e
  have hb := h4 fuel (by omega) S e
  rw [ising_numQubits] at hb
  obtain ⟨R, _, _, _, eR, _⟩ := h3 fuel (by omega) S e (by omega) isingH hp hc (S.sigmaX.map fun _ => -1) (by simp) (by
    intro s hs
    obtain ⟨_, _, rfl⟩ := List.mem_map.1 hs
    exact .inr rfl)
  exact ⟨S, e, hne, R, eR⟩

end Taper
end QF
