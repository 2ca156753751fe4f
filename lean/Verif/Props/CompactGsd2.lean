import Verif.Props.CompactGsd

/-!
C61: shared index with `qubit_excitations=True`, and the index order for which the sign circuit is useless.
-/
namespace QF

/-- conjugation by the sign staircase does nothing when its target is not one of the flipped qubits -/
theorem stair_conj_inert {c0 : ℕ} {idx : List ℕ} (hn : idx.Nodup) {D fl : List ℕ} (hD : ∀ x ∈ D, x ∉ idx) (hfl : fl.Nodup)
    (hsub : fl ⊆ D) (hc0 : c0 ∈ D) (hcf : c0 ∉ fl) {E : Op} {P : ℕ → Prop} [DecidablePred P] {t : ℕ} (ht : t ∈ D)
    (hP : ∀ I J, (∀ q ∈ D, I.testBit q = J.testBit q) → (P I ↔ P J))
    {A B : ℂ} (hE : ∀ ψ I, E ψ I = if P I then A * ψ I + (if I.testBit t then B else -B) * ψ (flipAll fl I) else ψ I) (ψ : St) (I : ℕ) :
    ((stairC c0 idx).adjoint.op * (E * (stairC c0 idx).op)) ψ I = E ψ I := by
  have hc : c0 ∉ idx := hD c0 hc0
  by_cases hne : idx = []
  · subst hne
    simp [stairC, Circuit.adjoint]
  have hon := stairC_on hn hc
  have hl : c0 ≠ idx.getLast hne := fun e => hc (e ▸ List.getLast_mem hne)
  set z : ℕ → ℂ := fun I => if I.testBit c0 && I.testBit (idx.getLast hne) then -1 else 1 with hz
  have hS : ∀ (ψ : St) (I : ℕ), (stairC c0 idx).op ψ I = z I * ψ (stairK idx I) := by
    intro ψ I
    unfold stairC
    rw [dif_neg hne, Circuit.op_append]
    simp only [Circuit.op_cons, Circuit.op_nil, one_mul]
    rw [Module.End.mul_apply, cz_apply hl, chainC_apply idx hn]
  have hzz : ∀ I, z I * z I = 1 := by intro I; simp only [hz]; split_ifs <;> norm_num
  have hinv := (circuit_adjoint_op (fun g hg => (hon g hg).1)).2
  have hSd : ∀ (φ : St) (I : ℕ), (stairC c0 idx).adjoint.op φ I = z (stairL idx I) * φ (stairL idx I) := by
    intro φ I
    have e := hS ((stairC c0 idx).adjoint.op φ) (stairL idx I)
    rw [stairK_stairL idx hn, ← Module.End.mul_apply, hinv, Module.End.one_apply] at e
    rw [e, ← mul_assoc, hzz, one_mul]
  rw [Module.End.mul_apply, hSd, Module.End.mul_apply, hE, hE, hS, hS, stairK_stairL idx hn,
    stairK_flip idx hfl (fun x hx => hD x (hsub hx)), stairK_stairL idx hn]
  have hPP : P (stairL idx I) ↔ P I := hP _ _ (fun q hq => stairL_other idx I q (hD q hq))
  have hb : (stairL idx I).testBit t = I.testBit t := stairL_other idx I t (hD t ht)
  rw [if_congr hPP rfl rfl, hb]
  have hzf : z (flipAll fl (stairL idx I)) = z (stairL idx I) := by
    simp only [hz]
    have hgl : idx.getLast hne ∉ fl := fun hx => hD _ (hsub hx) (List.getLast_mem hne)
    rw [testBit_flipAll hfl, testBit_flipAll hfl]
    simp only [hcf, hgl, decide_false, Bool.xor_false]
  rw [hzf]
  split_ifs
  · linear_combination (A * ψ I + B * ψ (flipAll fl I)) * hzz (stairL idx I)
  · linear_combination (A * ψ I - B * ψ (flipAll fl I)) * hzz (stairL idx I)
  · linear_combination (ψ I) * hzz (stairL idx I)

theorem excitation_g {p g r : ℕ} (hpr : p ≠ r) (hgp : g ≠ p) (hgr : g ≠ r) (θ : ℝ) (q : Bool) :
    ∃ E, qubitExcitation θ [p] [r] [g] (-1) q = .ok E ∧ E.On ([p] ++ [r] ++ [g]) ∧
      ∀ ψ I, E.op ψ I = if ReachedG p g r I ∨ ReachedG p g r (flipAll ([p] ++ [r]) I) then
        (Real.cos ((if q then 1 else -1 : ℝ) * θ) : ℂ) * ψ I + (if I.testBit p then (Real.sin ((if q then 1 else -1 : ℝ) * θ) : ℂ)
        else -(Real.sin ((if q then 1 else -1 : ℝ) * θ) : ℂ)) * ψ (flipAll ([p] ++ [r]) I) else ψ I := by
  have hok : ExcOk p [] r [] := ⟨by simp [hpr]⟩
  obtain ⟨E, hE, hon, hEop⟩ := qubitExcitation_ok hok (gs := [g]) (by simp [hgp, hgr]) θ (-1) q
  refine ⟨E, hE, hon, fun ψ I => ?_⟩
  rw [hEop]
  have : ((exSign [r].length (-1) q : ℤ) : ℝ) = if q then 1 else -1 := by
    cases q
    · rw [exSign_fermion]; simp
    · rw [exSign_qubit]; simp
  rw [this]
  exact if_congr (exc_gsd hpr hgp hgr I) rfl rfl

theorem perm_pair {a b : ℕ} {l : List ℕ} (h : l.Perm [a, b]) : l = [a, b] ∨ l = [b, a] := by
  have hlen := h.length_eq
  match l, hlen with
  | [x, y], _ =>
    have hx : x ∈ [a, b] := h.subset (by simp)
    have hy : y ∈ [a, b] := h.subset (by simp)
    have hc := (List.perm_iff_count.1 h)
    simp only [List.mem_cons, List.not_mem_nil, or_false] at hx hy
    have h1 : a ∈ [x, y] := h.symm.subset (by simp)
    have h2 : b ∈ [x, y] := h.symm.subset (by simp)
    simp only [List.mem_cons, List.not_mem_nil, or_false] at h1 h2
    rcases hx with rfl | rfl <;> rcases hy with rfl | rfl <;> simp_all

/-- Qubit excitations with one shared index, in every order of the two index lists: exactly `exp(θ (Q - Q†))`. -/
theorem C61_gsd_qubit (θ : ℝ) {p g r : ℕ} (hpr : p ≠ r) (hgp : g ≠ p) (hgr : g ≠ r) (cre ann : List ℕ)
    (hc : cre.Perm [p, g]) (ha : ann.Perm [r, g]) :
    ∃ C, compactExcitationCircuit θ cre ann true = .ok C ∧ (∀ x ∈ C, ApiGate x) ∧ (∀ n, p < n → g < n → r < n → C.Fits n) ∧
      IsExp ((θ : ℂ) • kappa true cre ann) C.op := by
  have h1 := hpr.symm
  have h2 := hgp.symm
  have h3 := hgr.symm
  have hnd : ([p] ++ [r] : List ℕ).Nodup := by simp [hpr]
  obtain ⟨E, hE, hon, hEop⟩ := excitation_g hpr hgp hgr θ true
  have hFb : ∀ I x, (flipAll ([p] ++ [r]) I).testBit x = xor (I.testBit x) (decide (x = p ∨ x = r)) := by
    intro I x; rw [testBit_flipAll hnd]; simp
  refine ⟨E, ?_, fun x hx => (hon x hx).1, ?_, ?_⟩
  · unfold compactExcitationCircuit
    rcases perm_pair hc with rfl | rfl <;> rcases perm_pair ha with rfl | rfl <;>
    · simp [gsdDuplicate, List.range_succ, pyIndex, except_ok_bind, pure, Except.pure, hpr, hgp, hgr, h1, h2, h3, hE, addCircuit_eq]
  · intro n a b c x hx
    have hs2 : ∀ y ∈ [p] ++ [r] ++ [g], y < n := by simp [a, b, c]
    exact ⟨hs2 _ (hon x hx).2.1, hs2 _ (hon x hx).2.2⟩
  · have hv : ∀ I, lvalid (caList cre ann) I = true ↔ ReachedG p g r I := by
      intro I
      obtain ⟨v1, v2, v3, v4⟩ := gsd_valid hpr hgp hgr I
      rcases perm_pair hc with rfl | rfl <;> rcases perm_pair ha with rfl | rfl
      exacts [v2, v3, v4, v1]
    have hf : ∀ I, lflip (caList cre ann) I = flipAll ([p] ++ [r]) I := by
      intro I
      rcases perm_pair hc with rfl | rfl <;> rcases perm_pair ha with rfl | rfl <;>
        exact lflip4 (List.perm_iff_count.2 (by intro x; simp [List.count_cons]; omega)) hpr hgp hgr _ _ _ _ I
    have hf' : ∀ I, lflip (ladj (caList cre ann)) I = flipAll ([p] ++ [r]) I := by
      intro I
      rw [ladj_caList]
      rcases perm_pair hc with rfl | rfl <;> rcases perm_pair ha with rfl | rfl <;>
      · refine lflip4 (p := p) (g := g) (r := r) ?_ hpr hgp hgr _ _ _ _ I
        exact (List.perm_iff_count.2 (by intro x; simp [List.count_cons]; omega))
    have := compact_finish (T := qubitString cre ann) (T' := qubitString ann.reverse cre.reverse) (V := ReachedG p g r)
      (P := fun I => ReachedG p g r I ∨ ReachedG p g r (flipAll ([p] ++ [r]) I))
      (s := fun _ => 1) (χ := fun _ => 1) (F := flipAll ([p] ++ [r])) (c0 := p) (ε := 1) (S := 1)
      (U := E.op) (Or.inl rfl) (Or.inl rfl) (flipAll_flipAll hnd) (by simp) (by simp) (by
        intro ψ I
        rw [qubitString_eq, qladders_apply, hf, one_mul]; exact if_congr (hv I) rfl rfl) (by
        intro ψ I
        obtain ⟨a1, a2, a3⟩ := l_adj (caList cre ann) I
        rw [hf'] at a1 a2
        rw [qubitString_eq, ← ladj_caList, qladders_apply, hf', a1, one_mul]; exact if_congr (hv _) rfl rfl) (fun I => Iff.rfl) (fun I h => h.1) (by
        intro I h
        have := h.1; rw [hFb] at this; simpa using this) (by
        intro I h; simp) θ (by
        intro ψ I
        rw [hEop]; simp)
    simpa [kappa] using this

theorem mem_signIdx_between {p g r x : ℕ} (hx : Between x p r) (hxg : x ≠ g) : x ∈ signIdx [g, p] [r, g] := by
  unfold signIdx
  unfold Between at hx
  rw [List.mem_reverse, List.mem_filter, List.mem_range]
  constructor
  · simp; omega
  · unfold signColumn
    rw [if_neg (by simp; omega)]
    rcases hx with ⟨a, b⟩ | ⟨a, b⟩
    · have : ¬ x < p := by omega
      by_cases c : x < g <;> simp [b, this, c]
    · have : ¬ x < r := by omega
      by_cases c : x < g <;> simp [b, this, c]

/-- The remaining order `g† p† r g` (with `g` between `p` and `r`): the sign circuit targets the shared orbital `g` instead
of `p` and cancels out, so as soon as another orbital `x` lies between `p` and `r` the circuit is not
`exp(θ (t - t†))`, unless `sin θ = 0`. -/
theorem C61_gsd_refuted (θ : ℝ) (hθ : Real.sin θ ≠ 0) {p g r x : ℕ} (hg : Between g p r) (hx : Between x p r) (hxg : x ≠ g) :
    ∃ C, compactExcitationCircuit θ [g, p] [r, g] false = .ok C ∧ ¬ IsExp ((θ : ℂ) • kappa false [g, p] [r, g]) C.op := by
  have hpr : p ≠ r := by unfold Between at hg; omega
  have hgp : g ≠ p := by unfold Between at hg; omega
  have hgr : g ≠ r := by unfold Between at hg; omega
  have hxp : x ≠ p := by unfold Between at hx; omega
  have hxr : x ≠ r := by unfold Between at hx; omega
  have h1 := hpr.symm
  have h2 := hgp.symm
  have h3 := hgr.symm
  have hnd : ([p] ++ [r] : List ℕ).Nodup := by simp [hpr]
  obtain ⟨E, hE, hon, hEop⟩ := excitation_g hpr hgp hgr θ false
  set idx := signIdx [g, p] [r, g] with hidx
  have hn : idx.Nodup := signIdx_nodup _ _
  have hD : ∀ y ∈ [p, r, g], y ∉ idx := by
    intro y hy
    refine signIdx_not_mem ?_
    simp only [List.mem_cons, List.not_mem_nil, or_false] at hy
    simp only [List.cons_append, List.nil_append, List.mem_cons, List.not_mem_nil, or_false]
    tauto
  have hFb : ∀ I x, (flipAll ([p] ++ [r]) I).testBit x = xor (I.testBit x) (decide (x = p ∨ x = r)) := by
    intro I x; rw [testBit_flipAll hnd]; simp
  refine ⟨stairC g idx ++ E ++ (stairC g idx).adjoint, ?_, fun hexp => ?_⟩
  · unfold compactExcitationCircuit
    have f1 : [g, p].filter (· ∉ [r, g]) = [p] := by simp [h2, hpr]
    have f2 : [r, g].filter (· ∉ [g, p]) = [r] := by simp [h3, h1]
    have f3 : ([g, p].filter (· ∈ [r, g])).dedup = [g] := by simp [h2, hpr]
    have f4 : gsdDuplicate [g, p] [r, g] g = .ok [0, 1] := by
      simp [gsdDuplicate, List.range_succ, pyIndex, h2, h3, except_ok_bind, pure, Except.pure]
    have f5 : ¬ (([0, 1] : List ℕ) = [0, 0] ∨ ([0, 1] : List ℕ) = [1, 1]) := by simp
    rw [if_neg (by simp)]
    simp only [f1, f2, f3, f4, f5, List.length_singleton, gt_iff_lt, lt_irrefl, if_false, except_ok_bind, pure, Except.pure,
      decide_false, Bool.false_eq_true]
    rw [fermionSign_ok, except_ok_bind, hE, except_ok_bind]
    simp [addCircuit_eq, hidx]
  · have hU : ∀ ψ I, Circuit.op (stairC g idx ++ E ++ (stairC g idx).adjoint) ψ I = E.op ψ I := by
      intro ψ I
      rw [Circuit.op_append, Circuit.op_append]
      exact stair_conj_inert hn (D := [p, r, g]) hD hnd (by intro x hx; simp only [List.mem_append, List.mem_singleton, List.mem_cons] at hx ⊢; tauto)
        (by simp) (by simp [hgp, hgr]) (t := p) (by simp) (P := fun I => ReachedG p g r I ∨ ReachedG p g r (flipAll ([p] ++ [r]) I)) (by
          intro I J hIJ
          unfold ReachedG
          simp only [hFb, hIJ p (by simp), hIJ r (by simp), hIJ g (by simp)]) hEop ψ I
    have hf : ∀ I, lflip (caList [g, p] [r, g]) I = flipAll ([p] ++ [r]) I := fun I =>
      lflip4 (List.perm_iff_count.2 (by intro x; simp [List.count_cons]; omega)) hpr hgp hgr _ _ _ _ I
    have hf' : ∀ I, lflip (ladj (caList [g, p] [r, g])) I = flipAll ([p] ++ [r]) I := by
      intro I
      rw [ladj_caList]
      refine lflip4 (p := p) (g := g) (r := r) ?_ hpr hgp hgr _ _ _ _ I
      exact (List.perm_iff_count.2 (by intro x; simp [List.count_cons]; omega))
    have hv := fun I => (gsd_valid hpr hgp hgr I).2.2.2
    have hVn : ∀ I, ReachedG p g r I → ¬ ReachedG p g r (flipAll ([p] ++ [r]) I) := by
      intro I h h'
      have a := h'.1
      rw [hFb, h.1] at a
      simp at a
    have hright : ∀ (ψ : St) (I : ℕ), ReachedG p g r I → Circuit.op (stairC g idx ++ E ++ (stairC g idx).adjoint) ψ I =
        Real.cos θ * ψ I + Real.sin θ * (lsign (caList [g, p] [r, g]) I * ψ (flipAll ([p] ++ [r]) I)) := by
      obtain ⟨hK, hKK, hcub⟩ := excite_powers (T := fermiString [g, p] [r, g]) (T' := fermiString [g, r] [p, g]) (V := ReachedG p g r)
        (flipAll_flipAll hnd) (lsign_sq (caList [g, p] [r, g])) hVn (by
          intro ψ I
          rw [fermiString_eq, ladders_apply, hf]; exact if_congr (hv I) rfl rfl) (by
          intro ψ I
          obtain ⟨a1, a2, a3⟩ := l_adj (caList [g, p] [r, g]) I
          rw [hf'] at a1 a2
          have e : caList [g, r] [p, g] = ladj (caList [g, p] [r, g]) := by rw [ladj_caList]; rfl
          rw [fermiString_eq, e, ladders_apply, hf', a1, a2]; exact if_congr (hv _) rfl rfl)
      intro ψ I hI
      have e1 : kappa false [g, p] [r, g] = fermiString [g, p] [r, g] - fermiString [g, r] [p, g] := by simp [kappa]
      rw [e1] at hexp
      rw [hexp.unique (isExp_cubic hcub θ)]
      have e : (1 + (Real.sin θ : ℂ) • (fermiString [g, p] [r, g] - fermiString [g, r] [p, g]) + (1 - (Real.cos θ : ℂ)) •
          ((fermiString [g, p] [r, g] - fermiString [g, r] [p, g]) * (fermiString [g, p] [r, g] - fermiString [g, r] [p, g]))) ψ I =
          ψ I + Real.sin θ * (fermiString [g, p] [r, g] - fermiString [g, r] [p, g]) ψ I + (1 - Real.cos θ) *
            (fermiString [g, p] [r, g] - fermiString [g, r] [p, g]) ((fermiString [g, p] [r, g] - fermiString [g, r] [p, g]) ψ) I := rfl
      rw [e, hK, hKK, if_pos hI, if_pos (Or.inl hI)]
      ring
    have hs : ∀ I, ReachedG p g r I → lsign (caList [g, p] [r, g]) I = -1 := by
      intro I hI
      have a := hright (Pi.single (flipAll ([p] ++ [r]) I) 1) I hI
      have hne : I ≠ flipAll ([p] ++ [r]) I := fun e => hVn I hI (e ▸ hI)
      rw [hU, hEop, if_pos (Or.inl hI), if_pos hI.1] at a
      simp only [Pi.single_eq_same, Pi.single_eq_of_ne hne, Bool.false_eq_true, if_false, neg_mul, one_mul, Real.sin_neg, Real.cos_neg, mul_zero,
        zero_add, mul_one] at a
      have hθ' : (Real.sin θ : ℂ) ≠ 0 := by exact_mod_cast hθ
      apply mul_left_cancel₀ hθ'
      rw [← a]; push_cast; ring
    have hi0 : ∀ y, (flipAll [p, g] 0).testBit y = decide (y = p ∨ y = g) := by
      intro y; rw [testBit_flipAll (by simp [h2])]; simp
    have hi1 : ∀ y, (flipAll [p, g, x] 0).testBit y = decide (y = p ∨ y = g ∨ y = x) := by
      intro y; rw [testBit_flipAll (by simp [h2, hxp.symm, hxg.symm])]; simp
    have r0 := hs (flipAll [p, g] 0) ⟨by rw [hi0]; simp, by rw [hi0]; simp, by rw [hi0]; simp [h1, h3]⟩
    have r1 := hs (flipAll [p, g, x] 0) ⟨by rw [hi1]; simp, by rw [hi1]; simp, by rw [hi1]; simp [h1, h3, hxr.symm]⟩
    rw [lsign_eq, caList_snd, fprod_split] at r0 r1
    have p0 : par idx (flipAll [p, g] 0) = false := by
      rw [par_congr (J := 0)]
      · clear_value idx; clear * -
        induction idx with
        | nil => rfl
        | cons a l ih => rw [par_cons, ih]; simp
      · intro q hq
        have a1 : q ≠ p := fun e => hD p (by simp) (e ▸ hq)
        have a2 : q ≠ g := fun e => hD g (by simp) (e ▸ hq)
        rw [hi0]; simp [a1, a2]
    have p1 : par idx (flipAll [p, g, x] 0) = true := by
      rw [par_congr (J := flipBit 0 x)]
      · have hxi : x ∈ idx := mem_signIdx_between hx hxg
        clear_value idx
        clear * - hxi hn
        induction idx with
        | nil => cases hxi
        | cons a l ih =>
          rw [List.nodup_cons] at hn
          rw [par_cons]
          rcases List.mem_cons.1 hxi with rfl | h
          · have : par l (flipBit 0 x) = false := by
              have hl := hn.1
              clear * - hl
              induction l with
              | nil => rfl
              | cons b l ih =>
                simp only [List.mem_cons, not_or] at hl
                rw [par_cons, ih hl.2, testBit_flipBit]; simp [Ne.symm hl.1]
            rw [this, testBit_flipBit]; simp
          · have : a ≠ x := fun e => hn.1 (e ▸ h)
            rw [ih hn.2 h, testBit_flipBit]; simp [this]
      · intro q hq
        have a1 : q ≠ p := fun e => hD p (by simp) (e ▸ hq)
        have a2 : q ≠ g := fun e => hD g (by simp) (e ▸ hq)
        rw [hi1, testBit_flipBit]; simp [a1, a2]
    rw [← hidx, p0] at r0
    rw [← hidx, p1] at r1
    have hprod : (∏ j ∈ ([g, p] ++ [r, g]).toFinset, if (flipAll [p, g, x] 0).testBit j then (-1 : ℂ) ^ ([g, p] ++ [r, g]).countP (j < ·) else 1) =
        ∏ j ∈ ([g, p] ++ [r, g]).toFinset, if (flipAll [p, g] 0).testBit j then (-1 : ℂ) ^ ([g, p] ++ [r, g]).countP (j < ·) else 1 := by
      refine Finset.prod_congr rfl fun j hj => ?_
      have hj' : j ≠ x := by
        rintro rfl
        simp [hxg, hxp, hxr] at hj
      simp only [hi0, hi1, hj', or_false]
    rw [hprod] at r1
    have : (1 : ℂ) = -1 := by
      have c0 : psign false = 1 := by simp [psign]
      have c1 : psign true = -1 := by simp [psign]
      rw [c0] at r0
      rw [c1] at r1
      linear_combination r0 + r1
    norm_num at this

/-- the refuted order occurs, e.g. `compact_excitation_circuit(θ, [1, 0], [3, 1], False)`; and so do the proved ones -/
theorem C61_gsd_example : Between 1 0 3 ∧ Between 2 0 3 ∧ ¬ Between 3 0 2 ∧ Between 3 5 1 := by unfold Between; omega

end QF
