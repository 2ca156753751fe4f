import Verif.Lemmas.Rotate
import Verif.Props.ComputerErr
import Verif.Props.Sparse

/-! Expectation values and measurement (C28-C33). -/
namespace QF

/-! ### C28: the state is unchanged -/

/-- C28: `direct_circ_exp_val` leaves the amplitudes as they were. -/
theorem C28_direct_circ (q q' : Computer) (c : Circuit) (v : ℂ) (h : q.directCircExpVal c = .ok (v, q')) : q'.coeff = q.coeff := by
  unfold Computer.directCircExpVal at h
  rcases e1 : q.applyCircuit c with _ | q1
  · rw [e1] at h; cases h
  · rw [e1, except_ok_bind] at h
    rcases e2 : innerProd 0 q.coeff q1.coeff with _ | r
    · rw [e2] at h; cases h
    · rw [e2, except_ok_bind] at h; cases h; rfl

/-- C28: `direct_op_exp_val` leaves the amplitudes as they were (both builds). -/
theorem C28_direct_op (q q' : Computer) (par : Option Schedule) (A : QubitOperator) (v : ℂ)
    (h : q.directOpExpVal par A = .ok (v, q')) : q'.coeff = q.coeff := by
  cases par with
  | some sch =>
    unfold Computer.directOpExpVal at h
    simp only at h
    rcases e1 : A.foldlM (fun r t => (do
      let v ← q.directPauliCircExpVal sch t.2
      pure (r + t.1 * v) : Except Exc ℂ)) (0 : ℂ) with _ | r
    · rw [e1] at h; cases h
    · rw [e1, except_ok_bind] at h; cases h; rfl
  | none =>
    unfold Computer.directOpExpVal at h
    simp only at h
    rcases e1 : q.applyOperator A with _ | q1
    · rw [e1] at h; cases h
    · rw [e1, except_ok_bind] at h
      rcases e2 : innerProd 0 q.coeff q1.coeff with _ | r
      · rw [e2] at h; cases h
      · rw [e2, except_ok_bind] at h; cases h; rfl

/-- C28: `direct_oppl_exp_val`. -/
theorem C28_direct_oppl (q q' : Computer) (par : Option Schedule) (P : QubitOpPool) (v : List ℂ)
    (h : q.directOpplExpVal par P = .ok (v, q')) : q'.coeff = q.coeff := by
  refine foldlM_inv (fun s : List ℂ × Computer => s.2.coeff = q.coeff) _ ?_ P ([], q) (v, q') rfl h
  rintro ⟨l, s⟩ t ⟨l', s'⟩ hs hst
  simp only at hs hst ⊢
  rcases e : s.directOpExpVal par t.2 with _ | ⟨x, y⟩
  · rw [e] at hst; cases hst
  · rw [e, except_ok_bind] at hst
    cases hst
    rw [C28_direct_op _ _ _ _ _ e, hs]

/-- C28: `direct_idxd_oppl_exp_val`. -/
theorem C28_direct_idxd_oppl (q q' : Computer) (par : Option Schedule) (P : QubitOpPool) (idxs : List ℤ) (v : List ℂ)
    (h : q.directIdxdOpplExpVal par P idxs = .ok (v, q')) : q'.coeff = q.coeff := by
  refine foldlM_inv (fun s : List ℂ × Computer => s.2.coeff = q.coeff) _ ?_ idxs ([], q) (v, q') rfl h
  rintro ⟨l, s⟩ i ⟨l', s'⟩ hs hst
  simp only at hs hst ⊢
  by_cases hi : i < 0
  · rw [if_pos hi] at hst; cases hst
  · rw [if_neg hi] at hst
    rcases hP : P[i.toNat]? with _ | t
    · rw [hP] at hst; cases hst
    · rw [hP] at hst
      cases par with
      | some sch =>
        simp only [pure, Except.pure, except_ok_bind] at hst
        rcases e : s.directOpExpVal (some sch) t.2 with _ | ⟨x, y⟩
        · rw [e] at hst; cases hst
        · rw [e, except_ok_bind] at hst
          cases hst
          rw [C28_direct_op _ _ _ _ _ e, hs]
      | none =>
        simp only [pure, Except.pure, except_ok_bind] at hst
        rcases e1 : s.applyOperator t.2 with _ | q1
        · rw [e1] at hst; cases hst
        · rw [e1, except_ok_bind] at hst
          rcases e2 : innerProd 0 q.coeff q1.coeff with _ | r
          · rw [e2] at hst; cases hst
          · rw [e2, except_ok_bind] at hst; cases hst; rfl

/-- C28: `direct_oppl_exp_val_w_mults`. -/
theorem C28_direct_oppl_w_mults (q q' : Computer) (par : Option Schedule) (P : QubitOpPool) (mults : List ℂ) (v : List ℂ)
    (h : q.directOpplExpValWMults par P mults = .ok (v, q')) : q'.coeff = q.coeff := by
  refine foldlM_inv (fun s : List ℂ × Computer => s.2.coeff = q.coeff) _ ?_ P ([], q) (v, q') rfl h
  rintro ⟨l, s⟩ t ⟨l', s'⟩ hs hst
  simp only at hs hst ⊢
  generalize hf : (fun (acc : ℂ × Computer) (u : (ℂ × Circuit) × ℕ) => (do
      let m ← rd mults u.2
      let val := m * t.1 * u.1.1
      match par with
      | some sch => do
        let v ← acc.2.directPauliCircExpVal sch u.1.2
        pure (acc.1 + val * v, acc.2)
      | none => do
        let (v, q2) ← acc.2.directCircExpVal u.1.2
        pure (acc.1 + val * v, q2) : Except Exc (ℂ × Computer))) = f at hst
  rcases e : List.foldlM f (0, s) t.2.zipIdx with _ | ⟨r, s1⟩
  · erw [e] at hst; cases hst
  · erw [e] at hst
    simp only [pure, Except.pure, except_ok_bind] at hst
    cases hst
    refine foldlM_inv (fun a : ℂ × Computer => a.2.coeff = q.coeff) f ?_ _ _ _ hs e
    rintro ⟨a, sa⟩ u ⟨a', sa'⟩ hsa hu
    simp only at hsa ⊢
    rw [← hf] at hu
    simp only at hu
    rcases em : rd mults u.2 with _ | m
    · rw [em] at hu; cases hu
    · rw [em, except_ok_bind] at hu
      cases par with
      | some sch =>
        simp only at hu
        rcases ed : sa.directPauliCircExpVal sch u.1.2 with _ | x
        · rw [ed] at hu; cases hu
        · rw [ed, except_ok_bind] at hu; cases hu; exact hsa
      | none =>
        simp only at hu
        rcases ed : sa.directCircExpVal u.1.2 with _ | ⟨x, y⟩
        · rw [ed] at hu; cases hu
        · rw [ed, except_ok_bind] at hu
          cases hu
          rw [C28_direct_circ _ _ _ _ ed, hsa]

/-- C28: `measure_circuit`, whatever is drawn. -/
theorem C28_measure_circuit (q q' : Computer) (s : Sampler) (c : Circuit) (n : ℕ) (v : List ℝ)
    (h : q.measureCircuit s c n = .ok (v, q')) : q'.coeff = q.coeff := by
  unfold Computer.measureCircuit at h
  rcases e1 : basisRotator c with _ | r
  · rw [e1] at h; cases h
  · rw [e1, except_ok_bind] at h
    rcases e2 : q.applyCircuit r with _ | q1
    · rw [e2] at h; cases h
    · rw [e2, except_ok_bind] at h; cases h; rfl

/-- C28: `measure_readouts`, whatever is drawn. -/
theorem C28_measure_readouts (q q' : Computer) (s : Sampler) (c : Circuit) (n : ℕ) (v : List (List ℕ))
    (h : q.measureReadouts s c n = .ok (v, q')) : q'.coeff = q.coeff := by
  unfold Computer.measureReadouts at h
  rcases e1 : basisRotator c with _ | r
  · rw [e1] at h; cases h
  · rw [e1, except_ok_bind] at h
    rcases e2 : q.applyCircuit r with _ | q1
    · rw [e2] at h; cases h
    · rw [e2, except_ok_bind] at h; cases h; rfl

/-- C28: `perfect_measure_circuit`. -/
theorem C28_perfect_measure (q q' : Computer) (c : Circuit) (v : ℝ)
    (h : q.perfectMeasureCircuit c = .ok (v, q')) : q'.coeff = q.coeff := by
  unfold Computer.perfectMeasureCircuit at h
  rcases e1 : basisRotator c with _ | r
  · rw [e1] at h; cases h
  · rw [e1, except_ok_bind] at h
    rcases e2 : q.applyCircuit r with _ | q1
    · rw [e2] at h; cases h
    · rw [e2, except_ok_bind] at h
      rcases e3 : (List.range q1.nbasis).foldlM (fun sum k => (do
        let a ← rd q1.coeff k
        pure (sum + ((signValue c k : ℂ) * a * (starRingEnd ℂ) a).re) : Except Exc ℝ)) (0 : ℝ) with _ | x
      · rw [e3] at h; cases h
      · rw [e3, except_ok_bind] at h; cases h; rfl

/-! ### C29: expectation values -/

theorem innerProd_inner {q q1 : Computer} (hq : q.WF) (h1 : q1.WF) (hn : q1.nqubit = q.nqubit) :
    innerProd 0 q.coeff q1.coeff = .ok (inner q.nqubit q.psi q1.psi) := by
  rw [innerProd_eq 0 _ _ (by rw [hq.len, h1.len, hn]), hq.len, zero_add]; rfl

theorem WF.restore {q q1 : Computer} (hq : q.WF) (h1 : q1.WF) (hn : q1.nqubit = q.nqubit) : Computer.WF { q1 with coeff := q.coeff } :=
  ⟨h1.nbasis, by show q.coeff.length = 2 ^ q1.nqubit; rw [hq.len, hn], h1.new⟩

/-- the computer is as before the call, except for the gate counters -/
structure SameState (q q' : Computer) : Prop where
  coeff : q'.coeff = q.coeff
  nqubit : q'.nqubit = q.nqubit
  wf : q'.WF

theorem SameState.refl {q : Computer} (h : q.WF) : SameState q q := ⟨rfl, rfl, h⟩
theorem SameState.trans {a b c : Computer} (h : SameState a b) (k : SameState b c) : SameState a c :=
  ⟨k.coeff.trans h.coeff, k.nqubit.trans h.nqubit, k.wf⟩
theorem SameState.psi {q q' : Computer} (h : SameState q q') : q'.psi = q.psi := by unfold Computer.psi; rw [h.coeff]

/-- C29: `direct_circ_exp_val` is `⟨ψ|C|ψ⟩`. -/
theorem C29_direct_circ (q : Computer) (c : Circuit) (hq : q.WF) (hf : c.Fits q.nqubit) (hg : ∀ g ∈ c, ExactGate g) :
    ∃ q', q.directCircExpVal c = .ok (inner q.nqubit q.psi (c.op q.psi), q') ∧ SameState q q' := by
  obtain ⟨q1, e1, w1, n1, p1⟩ := applyCircuit_exact c hq hf hg
  refine ⟨{ q1 with coeff := q.coeff }, ?_, rfl, n1, WF.restore hq w1 n1⟩
  unfold Computer.directCircExpVal
  rw [e1, except_ok_bind, innerProd_inner hq w1 n1, p1]; rfl

/-- C29: for every gate the API makes, `direct_circ_exp_val` is `⟨ψ|C|ψ⟩` up to `((1+4e-16)^k - 1)·‖ψ‖²`, `k` the
number of gates. -/
theorem C29_direct_circ_error (q : Computer) (c : Circuit) (hq : q.WF) (hf : c.Fits q.nqubit) (hg : ∀ g ∈ c, ApiGate g ∧ FastOK g) :
    ∃ v q', q.directCircExpVal c = .ok (v, q') ∧ SameState q q' ∧
      ‖v - inner q.nqubit q.psi (c.op q.psi)‖ ≤ ((1 + 4e-16) ^ c.length - 1) * nrm q.nqubit q.psi ^ 2 := by
  obtain ⟨q1, e1, w1, n1, p1⟩ := applyCircuit_near c hq hf (fun g h => (hg g h).1) (fun g h => (hg g h).2)
  refine ⟨inner q.nqubit q.psi q1.psi, { q1 with coeff := q.coeff }, ?_, ⟨rfl, n1, WF.restore hq w1 n1⟩, ?_⟩
  · unfold Computer.directCircExpVal
    rw [e1, except_ok_bind, innerProd_inner hq w1 n1]; rfl
  · rw [← inner_sub_right]
    refine le_trans (inner_le _ _ _) ?_
    have := mul_le_mul_of_nonneg_left p1 (nrm_nonneg q.nqubit q.psi)
    refine le_trans this (le_of_eq ?_)
    first | (unfold runErr; ring) | ring

/-- C29, for every operator whatsoever: `direct_op_exp_val` (serial build) is the inner product of the state with what
`apply_operator` makes of it; it fails only if `apply_operator` does. -/
theorem C29_direct_op_any (q q1 : Computer) (A : QubitOperator) (hq : q.WF) (h1 : q1.WF) (hn : q1.nqubit = q.nqubit) (h : q.applyOperator A = .ok q1) :
    ∃ q', q.directOpExpVal none A = .ok (inner q.nqubit q.psi q1.psi, q') ∧ SameState q q' := by
  refine ⟨{ q1 with coeff := q.coeff }, ?_, rfl, hn, WF.restore hq h1 hn⟩
  unfold Computer.directOpExpVal
  simp only
  rw [h, except_ok_bind, innerProd_inner hq h1 hn]; rfl

/-- C29: `direct_op_exp_val` (serial build) is `⟨ψ|O|ψ⟩`. -/
theorem C29_direct_op (q : Computer) (A : QubitOperator) (hq : q.WF) (hA : ∀ t ∈ A, t.2.Fits q.nqubit ∧ ∀ g ∈ t.2, ExactGate g) :
    ∃ q', q.directOpExpVal none A = .ok (inner q.nqubit q.psi (A.op q.psi), q') ∧ SameState q q' := by
  obtain ⟨q1, e1, w1, n1, p1⟩ := C24_apply_operator q A hq hA
  refine ⟨{ q1 with coeff := q.coeff }, ?_, rfl, n1, WF.restore hq w1 n1⟩
  unfold Computer.directOpExpVal
  simp only
  rw [e1, except_ok_bind, innerProd_inner hq w1 n1, p1]; rfl

/-- C29: the serial build on any API gates, up to `Σ_k |z_k|((1+4e-16)^{len_k} - 1)·‖ψ‖²`. -/
theorem C29_direct_op_error (q : Computer) (A : QubitOperator) (hq : q.WF)
    (hA : ∀ t ∈ A, t.2.Fits q.nqubit ∧ ∀ g ∈ t.2, ApiGate g ∧ FastOK g) :
    ∃ v q', q.directOpExpVal none A = .ok (v, q') ∧ SameState q q' ∧
      ‖v - inner q.nqubit q.psi (A.op q.psi)‖ ≤ (A.map fun t => ‖t.1‖ * ((1 + 4e-16) ^ t.2.length - 1)).sum * nrm q.nqubit q.psi ^ 2 := by
  obtain ⟨q1, e1, w1, n1, p1⟩ := C24_apply_operator_error q A hq hA
  refine ⟨inner q.nqubit q.psi q1.psi, { q1 with coeff := q.coeff }, ?_, ⟨rfl, n1, WF.restore hq w1 n1⟩, ?_⟩
  · unfold Computer.directOpExpVal
    simp only
    rw [e1, except_ok_bind, innerProd_inner hq w1 n1]; rfl
  · rw [← inner_sub_right]
    refine le_trans (inner_le _ _ _) ?_
    have := mul_le_mul_of_nonneg_left p1 (nrm_nonneg q.nqubit q.psi)
    refine le_trans this (le_of_eq ?_)
    first | (unfold runErr; ring) | ring

/-- C29: for Pauli operators (what `jw_transform` and `build_operator` produce) the value is exact. -/
theorem C29_direct_op_pauli (q : Computer) (A : QubitOperator) (hq : q.WF) (hA : A.IsPauli) (hn : A.numQubits ≤ q.nqubit) :
    ∃ q', q.directOpExpVal none A = .ok (inner q.nqubit q.psi (A.op q.psi), q') ∧ SameState q q' := by
  refine C29_direct_op q A hq (fun t ht => ⟨?_, ?_⟩)
  · intro g hg
    have := (C13_operator_num_qubits A).1 t ht g hg
    omega
  · intro g hg
    exact (isPauli_circuits hA t ht g hg).exact

/-- an operator is linear in its terms: `⟨O⟩ = Σ_k z_k ⟨C_k⟩` -/
theorem inner_op (n : ℕ) (A : QubitOperator) (φ ψ : St) : inner n φ (A.op ψ) = (A.map fun t => t.1 * inner n φ (t.2.op ψ)).sum := by
  induction A with
  | nil => simp [QubitOperator.op, inner]
  | cons t A ih =>
    have : QubitOperator.op (t :: A) = t.1 • t.2.op + QubitOperator.op A := by simp [QubitOperator.op]
    rw [this, List.map_cons, List.sum_cons, LinearMap.add_apply, inner_add_right, ih, LinearMap.smul_apply, inner_smul_right]

/-- C29: the pool version returns, in pool order, coefficient times expectation value. -/
theorem C29_direct_oppl (q : Computer) (P : QubitOpPool) (hq : q.WF)
    (hP : ∀ u ∈ P, ∀ t ∈ u.2, t.2.Fits q.nqubit ∧ ∀ g ∈ t.2, ExactGate g) :
    ∃ q', q.directOpplExpVal none P = .ok (P.map fun u => inner q.nqubit q.psi (u.2.op q.psi) * u.1, q') ∧ SameState q q' := by
  have key : ∀ (P : QubitOpPool) (s : Computer) (acc : List ℂ), SameState q s →
      (∀ u ∈ P, ∀ t ∈ u.2, t.2.Fits q.nqubit ∧ ∀ g ∈ t.2, ExactGate g) →
      ∃ q', P.foldlM (fun (s : List ℂ × Computer) t => (do
        let (v, q1) ← s.2.directOpExpVal none t.2
        pure (s.1 ++ [v * t.1], q1) : Except Exc (List ℂ × Computer))) (acc, s) =
          .ok (acc ++ P.map fun u => inner q.nqubit q.psi (u.2.op q.psi) * u.1, q') ∧ SameState q q' := by
    intro P
    induction P with
    | nil => intro s acc h _; exact ⟨s, by simp [pure, Except.pure], h⟩
    | cons u P ih =>
      intro s acc h hP
      obtain ⟨s1, e1, k1⟩ := C29_direct_op s u.2 h.wf (fun t ht => by rw [h.nqubit]; exact hP u (by simp) t ht)
      rw [h.nqubit, h.psi] at e1
      obtain ⟨q', e2, k2⟩ := ih s1 (acc ++ [inner q.nqubit q.psi (u.2.op q.psi) * u.1]) (h.trans k1) (fun x hx => hP x (by simp [hx]))
      refine ⟨q', ?_, k2⟩
      rw [List.foldlM_cons]
      simp only [e1, except_ok_bind, pure, Except.pure] at e2 ⊢
      erw [e2]; simp
  obtain ⟨q', e, k⟩ := key P q [] (SameState.refl hq) hP
  exact ⟨q', by unfold Computer.directOpplExpVal; simpa using e, k⟩

/-- C29: the indexed pool version returns the values of the selected operators, in index order. -/
theorem C29_direct_idxd_oppl (q : Computer) (P : QubitOpPool) (idxs : List ℤ) (hq : q.WF)
    (hP : ∀ u ∈ P, ∀ t ∈ u.2, t.2.Fits q.nqubit ∧ ∀ g ∈ t.2, ExactGate g) (hi : ∀ i ∈ idxs, 0 ≤ i ∧ i < P.length) :
    ∃ q', q.directIdxdOpplExpVal none P idxs =
      .ok (idxs.map fun i => inner q.nqubit q.psi ((P.getD i.toNat (0, [])).2.op q.psi) * (P.getD i.toNat (0, [])).1, q') ∧ SameState q q' := by
  have key : ∀ (l : List ℤ) (s : Computer) (acc : List ℂ), SameState q s → (∀ i ∈ l, 0 ≤ i ∧ i < P.length) →
      ∃ q', l.foldlM (fun (s : List ℂ × Computer) i => (do
        if i < 0 then .error .undefinedBehaviour
        match P[i.toNat]? with
        | none => .error .undefinedBehaviour
        | some t => do
            let q1 ← s.2.applyOperator t.2
            let r ← innerProd 0 q.coeff q1.coeff
            pure (s.1 ++ [r * t.1], { q1 with coeff := q.coeff }) : Except Exc (List ℂ × Computer))) (acc, s) =
          .ok (acc ++ l.map fun i => inner q.nqubit q.psi ((P.getD i.toNat (0, [])).2.op q.psi) * (P.getD i.toNat (0, [])).1, q') ∧ SameState q q' := by
    intro l
    induction l with
    | nil => intro s acc h _; exact ⟨s, by simp [pure, Except.pure], h⟩
    | cons i l ih =>
      intro s acc h hl
      have hi := hl i (by simp)
      have hlt : i.toNat < P.length := by omega
      have hg : P[i.toNat]? = some P[i.toNat] := List.getElem?_eq_getElem hlt
      have hd : P.getD i.toNat (0, []) = P[i.toNat] := by simp [List.getD_eq_getElem?_getD, hg]
      obtain ⟨s1, e1, w1, n1, p1⟩ := C24_apply_operator s P[i.toNat].2 h.wf (fun t ht => by
        rw [h.nqubit]; exact hP _ (List.getElem_mem hlt) t ht)
      rw [h.psi] at p1
      have n1' : s1.nqubit = q.nqubit := n1.trans h.nqubit
      have e2 := innerProd_inner hq w1 n1'
      obtain ⟨q', e3, k3⟩ := ih { s1 with coeff := q.coeff } (acc ++ [inner q.nqubit q.psi (P[i.toNat].2.op q.psi) * P[i.toNat].1])
        ⟨rfl, n1', WF.restore hq w1 n1'⟩ (fun x hx => hl x (by simp [hx]))
      refine ⟨q', ?_, k3⟩
      rw [List.foldlM_cons]
      simp only [if_neg (not_lt.2 hi.1), hg, e1, e2, p1, except_ok_bind, pure, Except.pure] at e3 ⊢
      erw [e3]; simp only [List.map_cons, hd, List.append_assoc, List.singleton_append]
  obtain ⟨q', e, k⟩ := key idxs q [] (SameState.refl hq) hi
  refine ⟨q', ?_, k⟩
  unfold Computer.directIdxdOpplExpVal
  rw [List.nil_append] at e
  erw [e]

/-- C29: an index outside the pool is not defined. -/
theorem C29_idxd_out_of_range (q : Computer) (P : QubitOpPool) (i : ℤ) (h : i < 0 ∨ (P.length : ℤ) ≤ i) (par : Option Schedule) :
    q.directIdxdOpplExpVal par P [i] = .error .undefinedBehaviour := by
  unfold Computer.directIdxdOpplExpVal
  rw [List.foldlM_cons]
  by_cases hi : i < 0
  · simp only [if_pos hi]; rfl
  · have : P[i.toNat]? = none := List.getElem?_eq_none (by omega)
    simp only [if_neg hi, this]; rfl

/-- C29: with multipliers, operator `u` of the pool contributes `c_u · Σ_k m_k z_k ⟨C_k⟩`. -/
theorem C29_direct_oppl_w_mults (q : Computer) (P : QubitOpPool) (mults : List ℂ) (hq : q.WF)
    (hP : ∀ u ∈ P, u.2.length ≤ mults.length ∧ ∀ t ∈ u.2, t.2.Fits q.nqubit ∧ ∀ g ∈ t.2, ExactGate g) :
    ∃ q', q.directOpplExpValWMults none P mults =
      .ok (P.map fun u => (u.2.zipIdx.map fun t => mults.getD t.2 0 * u.1 * t.1.1 * inner q.nqubit q.psi (t.1.2.op q.psi)).sum, q') ∧ SameState q q' := by
  have inner_loop : ∀ (z : ℂ) (l : List ((ℂ × Circuit) × ℕ)) (s : Computer) (acc : ℂ), SameState q s →
      (∀ t ∈ l, t.2 < mults.length ∧ t.1.2.Fits q.nqubit ∧ ∀ g ∈ t.1.2, ExactGate g) →
      ∃ q', l.foldlM (fun (acc : ℂ × Computer) u => (do
        let m ← rd mults u.2
        let (v, q2) ← acc.2.directCircExpVal u.1.2
        pure (acc.1 + m * z * u.1.1 * v, q2) : Except Exc (ℂ × Computer))) (acc, s) =
        .ok (acc + (l.map fun t => mults.getD t.2 0 * z * t.1.1 * inner q.nqubit q.psi (t.1.2.op q.psi)).sum, q') ∧ SameState q q' := by
    intro z l
    induction l with
    | nil => intro s acc h _; exact ⟨s, by simp [pure, Except.pure], h⟩
    | cons t l ih =>
      intro s acc h hl
      obtain ⟨h1, h2, h3⟩ := hl t (by simp)
      obtain ⟨s1, e1, k1⟩ := C29_direct_circ s t.1.2 h.wf (by rw [h.nqubit]; exact h2) h3
      rw [h.nqubit, h.psi] at e1
      obtain ⟨q', e2, k2⟩ := ih s1 (acc + mults.getD t.2 0 * z * t.1.1 * inner q.nqubit q.psi (t.1.2.op q.psi)) (h.trans k1) (fun x hx => hl x (by simp [hx]))
      refine ⟨q', ?_, k2⟩
      have er : rd mults t.2 = .ok (mults.getD t.2 0) := by
        simp [rd, List.getElem?_eq_getElem h1, List.getD_eq_getElem?_getD]
      rw [List.foldlM_cons]
      simp only [er, e1, except_ok_bind, pure, Except.pure] at e2 ⊢
      erw [e2]; simp [add_assoc]
  have key : ∀ (P : QubitOpPool) (s : Computer) (acc : List ℂ), SameState q s →
      (∀ u ∈ P, u.2.length ≤ mults.length ∧ ∀ t ∈ u.2, t.2.Fits q.nqubit ∧ ∀ g ∈ t.2, ExactGate g) →
      ∃ q', P.foldlM (fun (s : List ℂ × Computer) t => (do
        let (r, q1) ← t.2.zipIdx.foldlM (fun (acc : ℂ × Computer) u => (do
          let m ← rd mults u.2
          let (v, q2) ← acc.2.directCircExpVal u.1.2
          pure (acc.1 + m * t.1 * u.1.1 * v, q2) : Except Exc (ℂ × Computer))) (0, s.2)
        pure (s.1 ++ [r], q1) : Except Exc (List ℂ × Computer))) (acc, s) =
          .ok (acc ++ P.map fun u => (u.2.zipIdx.map fun t => mults.getD t.2 0 * u.1 * t.1.1 * inner q.nqubit q.psi (t.1.2.op q.psi)).sum, q') ∧ SameState q q' := by
    intro P
    induction P with
    | nil => intro s acc h _; exact ⟨s, by simp [pure, Except.pure], h⟩
    | cons u P ih =>
      intro s acc h hP
      obtain ⟨hlen, hu⟩ := hP u (by simp)
      obtain ⟨s1, e1, k1⟩ := inner_loop u.1 u.2.zipIdx s 0 h (by
        intro t ht
        obtain ⟨t1, i⟩ := t
        have := List.mem_zipIdx ht
        simp only [Nat.zero_add, Nat.sub_zero] at this
        refine ⟨by omega, ?_⟩
        have hm : t1 ∈ u.2 := by rw [this.2.2]; exact List.getElem_mem _
        exact hu t1 hm)
      rw [zero_add] at e1
      obtain ⟨q', e2, k2⟩ := ih s1 (acc ++ [(u.2.zipIdx.map fun t => mults.getD t.2 0 * u.1 * t.1.1 * inner q.nqubit q.psi (t.1.2.op q.psi)).sum]) k1
        (fun x hx => hP x (by simp [hx]))
      refine ⟨q', ?_, k2⟩
      rw [List.foldlM_cons]
      simp only [pure, Except.pure] at e1 e2 ⊢
      erw [e1]
      simp only [except_ok_bind]
      erw [e2]; simp
  obtain ⟨q', e, k⟩ := key P q [] (SameState.refl hq) hP
  refine ⟨q', ?_, k⟩
  unfold Computer.directOpplExpValWMults
  simpa using e

/-! ### C30: the blocked Pauli expectation value -/

/-- number of Y letters -/
def Circuit.numY (c : Circuit) : ℕ := c.countP fun g => g.label = "Y"

/-- a Pauli string: X, Y, Z gates on distinct qubits of an `n`-qubit register -/
structure Circuit.PauliString (n : ℕ) (c : Circuit) : Prop where
  gates : ∀ g ∈ c, PauliGate g
  distinct : (c.map Gate.target).Nodup
  fits : c.Fits n

/-- What `direct_pauli_circ_exp_val` returns, however the blocks are distributed over threads: `(-1)^{#Y} ⟨ψ|P|ψ⟩`. -/
theorem C30_value (q : Computer) (sch : Schedule) (c : Circuit) (hq : q.WF) (h0 : 1 ≤ q.nqubit) (hc : c.PauliString q.nqubit) :
    q.directPauliCircExpVal sch c = .ok ((-1) ^ c.numY * inner q.nqubit q.psi (c.op q.psi)) := by
  rw [directPauli_ok hq h0 sch c hc.gates hc.fits hc.distinct]
  congr 3
  simp [tgts, Circuit.numY, List.countP_eq_length_filter]

/-- C30 (strings with an even number of Y): the value is `⟨ψ|P|ψ⟩`, for every schedule.
Missing: strings with an odd number of Y, for which the sign is wrong (`C30_refuted`). -/
theorem C30_direct_pauli_partial (q : Computer) (sch : Schedule) (c : Circuit) (hq : q.WF) (h0 : 1 ≤ q.nqubit) (hc : c.PauliString q.nqubit)
    (hY : Even c.numY) : q.directPauliCircExpVal sch c = .ok (inner q.nqubit q.psi (c.op q.psi)) := by
  rw [C30_value q sch c hq h0 hc, hY.neg_one_pow, one_mul]

/-- C30: the result does not depend on how the blocks are distributed and summed. -/
theorem C30_schedule_independent (q : Computer) (s1 s2 : Schedule) (c : Circuit) (hq : q.WF) (h0 : 1 ≤ q.nqubit) (hc : c.PauliString q.nqubit) :
    q.directPauliCircExpVal s1 c = q.directPauliCircExpVal s2 c := by
  rw [C30_value q s1 c hq h0 hc, C30_value q s2 c hq h0 hc]

/-- C30: a gate other than X, Y, Z is rejected with an exception. -/
theorem C30_rejects (q : Computer) (sch : Schedule) (c : Circuit) (g : Gate) (hg : g ∈ c) (hl : ¬ IsXYZ g.label) :
    q.directPauliCircExpVal sch c = .error .runtimeError := by
  have key : ∀ (c : Circuit) (s : ℕ × List ℕ × List ℕ × List ℕ), g ∈ c → c.foldlM (fun (s : ℕ × List ℕ × List ℕ × List ℕ) g =>
    let m := if g.target < s.1 then g.target else s.1
    if g.label = "Z" then (.ok (m, s.2.1, s.2.2.1, s.2.2.2 ++ [g.target]) : Except Exc (ℕ × List ℕ × List ℕ × List ℕ))
    else if g.label = "X" then .ok (m, s.2.1 ++ [g.target], s.2.2.1, s.2.2.2)
    else if g.label = "Y" then .ok (m, s.2.1, s.2.2.1 ++ [g.target], s.2.2.2)
    else .error .runtimeError) s = .error .runtimeError := by
    intro c
    induction c with
    | nil => intro s h; cases h
    | cons x c ih =>
      intro s h
      rw [List.foldlM_cons]
      rcases List.mem_cons.1 h with e | e
      · subst e
        rw [if_neg (fun e => hl (.inr (.inr e))), if_neg (fun e => hl (.inl e)), if_neg (fun e => hl (.inr (.inl e)))]
        rfl
      · by_cases h1 : x.label = "Z"
        · simp only [if_pos h1, except_ok_bind]; exact ih _ e
        · by_cases h2 : x.label = "X"
          · simp only [if_neg h1, if_pos h2, except_ok_bind]; exact ih _ e
          · by_cases h3 : x.label = "Y"
            · simp only [if_neg h1, if_neg h2, if_pos h3, except_ok_bind]; exact ih _ e
            · simp only [if_neg h1, if_neg h2, if_neg h3]; rfl
  unfold Computer.directPauliCircExpVal pauliIdxs
  rw [key c _ hg]; rfl

/-- the one-qubit computer holding `(3/5, 4i/5)` -/
noncomputable def demoY : Computer := ⟨1, 2, [3 / 5, 4 / 5 * Complex.I], [0, 0], 0, 0⟩

theorem demoY_wf : demoY.WF := ⟨rfl, rfl, rfl⟩

/-- C30 is false of the code for a string with one Y: on the normalised state `(3/5, 4i/5)` the expectation value of `Y₀`
is 24/25 but `direct_pauli_circ_exp_val` returns -24/25. -/
theorem C30_refuted (sch : Schedule) : demoY.WF ∧ nrm 1 demoY.psi = 1 ∧ Circuit.PauliString 1 [gY 0] ∧
    inner 1 demoY.psi (Circuit.op [gY 0] demoY.psi) = 24 / 25 ∧ demoY.directPauliCircExpVal sch [gY 0] = .ok (-(24 / 25)) := by
  have hs : Circuit.PauliString 1 [gY 0] := ⟨by simp [pauliGate_Y], by simp, by intro g hg; simp at hg; subst hg; simp [gY]⟩
  have h0 : demoY.psi 0 = 3 / 5 := rfl
  have h1 : demoY.psi 1 = 4 / 5 * Complex.I := rfl
  have hv : inner 1 demoY.psi (Circuit.op [gY 0] demoY.psi) = 24 / 25 := by
    have f0 : flipBit 0 0 = 1 := by decide
    have f1 : flipBit 1 0 = 0 := by decide
    simp only [inner, Circuit.op_cons, Circuit.op_nil, one_mul, op_gY, opY_apply, pow_one, Finset.sum_range_succ, Finset.sum_range_zero, zero_add,
      f0, f1, h0, h1, map_mul, map_div₀, Complex.conj_I, map_ofNat]
    norm_num
    ring_nf
    rw [Complex.I_sq]; norm_num
  refine ⟨demoY_wf, ?_, hs, hv, ?_⟩
  · simp only [nrm, pow_one, Finset.sum_range_succ, Finset.sum_range_zero, zero_add, h0, h1]
    norm_num
  · rw [C30_value demoY sch [gY 0] demoY_wf (le_refl 1) hs]
    show Except.ok ((-1) ^ Circuit.numY [gY 0] * inner 1 demoY.psi (Circuit.op [gY 0] demoY.psi)) = _
    rw [hv]
    have : Circuit.numY [gY 0] = 1 := rfl
    rw [this]; norm_num

/-- C29 (OpenMP build): `direct_op_exp_val` returns `Σ_k z_k (-1)^{#Y_k} ⟨P_k⟩`. -/
theorem C29_parallel_value (q : Computer) (sch : Schedule) (A : QubitOperator) (hq : q.WF) (h0 : 1 ≤ q.nqubit)
    (hA : ∀ t ∈ A, t.2.PauliString q.nqubit) :
    q.directOpExpVal (some sch) A = .ok ((A.map fun t => t.1 * ((-1) ^ t.2.numY * inner q.nqubit q.psi (t.2.op q.psi))).sum, q) := by
  have := foldlM_ok_sum (fun t : ℂ × Circuit => (do let v ← q.directPauliCircExpVal sch t.2; pure (t.1 * v) : Except Exc ℂ))
    (fun t => t.1 * ((-1) ^ t.2.numY * inner q.nqubit q.psi (t.2.op q.psi))) A 0 (by
      intro t ht
      rw [C30_value q sch t.2 hq h0 (hA t ht)]; rfl)
  rw [zero_add] at this
  unfold Computer.directOpExpVal
  simp only
  have e : (fun (r : ℂ) (t : ℂ × Circuit) => (do
      let v ← q.directPauliCircExpVal sch t.2
      pure (r + t.1 * v) : Except Exc ℂ)) = (fun acc a => (do let x ← (do let v ← q.directPauliCircExpVal sch a.2; pure (a.1 * v) : Except Exc ℂ); pure (acc + x))) := by
    funext r t
    rcases q.directPauliCircExpVal sch t.2 with _ | v <;> rfl
  rw [e, this]; rfl

/-- C29: both builds agree on operators whose strings all have an even number of Y. -/
theorem C29_builds_agree_partial (q : Computer) (sch : Schedule) (A : QubitOperator) (hq : q.WF) (h0 : 1 ≤ q.nqubit)
    (hA : ∀ t ∈ A, t.2.PauliString q.nqubit ∧ Even t.2.numY) :
    ∃ q', q.directOpExpVal none A = .ok (inner q.nqubit q.psi (A.op q.psi), q') ∧
      q.directOpExpVal (some sch) A = .ok (inner q.nqubit q.psi (A.op q.psi), q) := by
  obtain ⟨q', e, _⟩ := C29_direct_op q A hq (fun t ht => ⟨(hA t ht).1.fits, fun g hg => ((hA t ht).1.gates g hg).exact⟩)
  refine ⟨q', e, ?_⟩
  rw [C29_parallel_value q sch A hq h0 (fun t ht => (hA t ht).1), inner_op]
  congr 3
  apply List.map_congr_left
  intro t ht
  rw [(hA t ht).2.neg_one_pow, one_mul]

/-! ### C31: perfect measurement -/

theorem list_range_sum (f : ℕ → ℝ) (n : ℕ) : ∑ k ∈ Finset.range n, f k = ((List.range n).map f).sum := by
  induction n with
  | zero => simp
  | succ n ih => rw [Finset.sum_range_succ, ih, List.range_succ, List.map_append, List.sum_append]; simp

theorem init_psi (n : ℕ) : (Computer.init n).psi = fun I => if I = 0 then 1 else 0 := by
  funext I
  have hp : 0 < 2 ^ n := by positivity
  simp only [Computer.psi, vec, Computer.init, List.getD_eq_getElem?_getD]
  rcases I with _ | I
  · simp [hp]
  · simp [List.getElem?_replicate]
    split_ifs <;> rfl

/-- C31: `perfect_measure_circuit` is `⟨ψ|P|ψ⟩` for every Pauli string. -/
theorem C31_perfect_measure (q : Computer) (c : Circuit) (hq : q.WF) (hc : c.PauliString q.nqubit) :
    ∃ v q', q.perfectMeasureCircuit c = .ok (v, q') ∧ (v : ℂ) = inner q.nqubit q.psi (c.op q.psi) ∧ SameState q q' := by
  have hl : ∀ g ∈ c, IsXYZ g.label := fun g hg => (hc.gates g hg).letter
  have hr := rotator_eq hl
  have hrf := rot_fits hc.fits
  have hre : ∀ g ∈ c.map rotOf, ExactGate g := by
    intro g hg
    obtain ⟨x, _, rfl⟩ := List.mem_map.1 hg
    exact rotOf_exact x
  obtain ⟨q1, e1, w1, n1, p1⟩ := applyCircuit_exact (c.map rotOf) hq hrf hre
  have hs := foldlM_ok_sum (fun k => (do let a ← rd q1.coeff k; pure (((signValue c k : ℂ) * a * (starRingEnd ℂ) a).re) : Except Exc ℝ))
    (fun k => ((signValue c k : ℂ) * q1.psi k * (starRingEnd ℂ) (q1.psi k)).re) (List.range q1.nbasis) 0 (by
      intro k hk
      have hk : k < q1.coeff.length := by rw [w1.len, ← w1.nbasis]; exact List.mem_range.1 hk
      have er : rd q1.coeff k = .ok (q1.psi k) := by
        simp [rd, List.getElem?_eq_getElem hk, Computer.psi, vec, List.getD_eq_getElem?_getD]
      rw [er]; rfl)
  rw [zero_add] at hs
  refine ⟨((List.range q1.nbasis).map fun k => ((signValue c k : ℂ) * q1.psi k * (starRingEnd ℂ) (q1.psi k)).re).sum,
    { q1 with coeff := q.coeff }, ?_, ?_, ⟨rfl, n1, WF.restore hq w1 n1⟩⟩
  · unfold Computer.perfectMeasureCircuit
    rw [hr, except_ok_bind, e1, except_ok_bind]
    have e : (fun (sum : ℝ) (k : ℕ) => (do
        let a ← rd q1.coeff k
        pure (sum + ((signValue c k : ℂ) * a * (starRingEnd ℂ) a).re) : Except Exc ℝ)) =
        (fun acc k => (do let x ← (do let a ← rd q1.coeff k; pure (((signValue c k : ℂ) * a * (starRingEnd ℂ) a).re) : Except Exc ℝ); pure (acc + x))) := by
      funext r t
      rcases rd q1.coeff t with _ | v <;> rfl
    rw [e, hs]; rfl
  · have hz : inner q.nqubit q.psi (c.op q.psi) = ∑ k ∈ Finset.range (2 ^ q.nqubit), (signValue c k : ℂ) * q1.psi k * (starRingEnd ℂ) (q1.psi k) := by
      rw [← inner_circuit hrf (fun g hg => (hre g hg).unitary), ← Module.End.mul_apply, ← zString_rot hc.gates hc.distinct, Module.End.mul_apply, ← p1]
      unfold inner
      refine Finset.sum_congr rfl (fun k _ => ?_)
      rw [zString_apply]; ring
    have hre : ∀ k, ((((signValue c k : ℂ) * q1.psi k * (starRingEnd ℂ) (q1.psi k)).re : ℝ) : ℂ) = (signValue c k : ℂ) * q1.psi k * (starRingEnd ℂ) (q1.psi k) := by
      intro k
      rw [mul_assoc, Complex.mul_conj, ← Complex.ofReal_mul, Complex.ofReal_re]
    rw [hz, w1.nbasis, n1, ← list_range_sum, Complex.ofReal_sum]
    exact Finset.sum_congr rfl fun k _ => hre k

/-- C31 is limited to X, Y, Z: an explicit identity gate is measured as if it were Z.  On `|1⟩` the string `[I₀]`
(whose expectation value is 1) gives -1. -/
theorem C31_identity_gate_measured_as_Z : ∃ g q v q', makeGate "X" 0 0 0 = .ok g ∧ (Computer.init 1).applyGate g = .ok q ∧
    Computer.perfectMeasureCircuit q [gI 0] = .ok (v, q') ∧ v = -1 ∧ inner 1 q.psi (Circuit.op [gI 0] q.psi) = 1 := by
  have w0 : (Computer.init 1).WF := Computer.WF.init 1
  obtain ⟨q, e1, w1, n1, p1⟩ := applyGate_exact (g := gX 0) w0 (by decide) (by decide) (pauliGate_X 0).exact
  rw [op_gX] at p1
  have hi : (Computer.init 1).psi = fun I => if I = 0 then 1 else 0 := init_psi 1
  have f0 : flipBit 0 0 = 1 := by decide
  have f1 : flipBit 1 0 = 0 := by decide
  have q0 : q.psi 0 = 0 := by rw [p1, opX_apply, hi, f0]; simp
  have q1 : q.psi 1 = 1 := by rw [p1, opX_apply, hi, f1]; simp
  have hlen : q.coeff.length = 2 := by rw [w1.len, n1]; rfl
  have r0 : rd q.coeff 0 = .ok 0 := by
    rw [← q0]; simp [rd, Computer.psi, vec, List.getD_eq_getElem?_getD, hlen]
  have r1 : rd q.coeff 1 = .ok 1 := by
    rw [← q1]; simp [rd, Computer.psi, vec, List.getD_eq_getElem?_getD, hlen]
  refine ⟨gX 0, q, -1, { q with coeff := q.coeff }, make_X 0 0, e1, ?_, rfl, ?_⟩
  · have hb : basisRotator [gI 0] = .ok [] := rfl
    have hn : q.nbasis = 2 := by rw [w1.nbasis, n1]; rfl
    unfold Computer.perfectMeasureCircuit
    rw [hb, except_ok_bind]
    simp only [Computer.applyCircuit, List.foldlM_nil, pure, Except.pure, except_ok_bind]
    rw [hn, show List.range 2 = [0, 1] from rfl]
    simp only [List.foldlM_cons, List.foldlM_nil, r0, r1, except_ok_bind, pure, Except.pure]
    have s1 : signValue [gI 0] 1 = -1 := by
      rw [signValue_eq]; simp [gI]
    rw [s1]; norm_num
    rw [← hn]
  · have : Circuit.op [gI 0] = 1 := by
      have h1 : (gI 0).op = 1 := by
        show matOp 0 0 (mat1 1 0 0 1) = 1
        rw [matOp_mat1]
        apply Op.ext'; intro ψ I
        rw [op1_apply]
        cases h : I.testBit 0 <;> simp [m2, setBit_eq_self h]
      simp [h1]
    rw [this, Module.End.one_apply]
    simp [inner, Finset.sum_range_succ, q0, q1]

/-! ### C32: measurement outcomes -/

theorem probs_eq (q : Computer) (k : ℕ) : q.probs.getD k 0 = ‖q.psi k‖ ^ 2 := by
  unfold Computer.probs Computer.psi vec
  rw [List.getD_eq_getElem?_getD, List.getD_eq_getElem?_getD, List.getElem?_map]
  rcases q.coeff[k]? with _ | z
  · simp
  · simp only [Option.map_some, Option.getD_some]
    rw [mul_comm, Complex.mul_conj, Complex.ofReal_re, Complex.normSq_eq_norm_sq]

/-- a draw from the probabilities of a non-zero state is a basis state of non-zero amplitude -/
theorem draw_support (q : Computer) (s : Sampler) (h : ∃ I, q.psi I ≠ 0) (k : ℕ) : q.psi (s.draw q.probs k) ≠ 0 := by
  have h1 : ∀ x ∈ q.probs, 0 ≤ x := by
    intro x hx
    obtain ⟨z, _, rfl⟩ := List.mem_map.1 hx
    rw [mul_comm, Complex.mul_conj, Complex.ofReal_re]; exact Complex.normSq_nonneg z
  have h2 : ∃ x ∈ q.probs, 0 < x := by
    obtain ⟨I, hI⟩ := h
    refine ⟨q.probs.getD I 0, ?_, ?_⟩
    · have hlt : I < q.coeff.length := by
        by_contra hc
        exact hI (vec_of_ge (by omega))
      have : I < q.probs.length := by simpa [Computer.probs] using hlt
      rw [List.getD_eq_getElem?_getD, List.getElem?_eq_getElem this]; exact List.getElem_mem this
    · rw [probs_eq]; have := norm_pos_iff.2 hI; positivity
  have := s.valid _ h1 h2 k
  rw [probs_eq] at this
  intro e
  rw [e] at this; simp at this

/-- C32: whatever circuit and draws, `measure_circuit` returns `n` values, each 1 or -1. -/
theorem C32_measure_pm_one (q q' : Computer) (s : Sampler) (c : Circuit) (n : ℕ) (v : List ℝ) (h : q.measureCircuit s c n = .ok (v, q')) :
    v.length = n ∧ ∀ x ∈ v, x = 1 ∨ x = -1 := by
  unfold Computer.measureCircuit at h
  rcases e1 : basisRotator c with _ | r
  · rw [e1] at h; cases h
  · rw [e1, except_ok_bind] at h
    rcases e2 : q.applyCircuit r with _ | q1
    · rw [e2] at h; cases h
    · rw [e2, except_ok_bind] at h; cases h
      refine ⟨by simp, ?_⟩
      intro x hx
      obtain ⟨k, _, rfl⟩ := List.mem_map.1 hx
      exact signValue_pm c _

/-- C32: whatever circuit and draws, `measure_readouts` returns `n` readouts, one bit (0 or 1) per gate. -/
theorem C32_readout_bits (q q' : Computer) (s : Sampler) (c : Circuit) (n : ℕ) (v : List (List ℕ)) (h : q.measureReadouts s c n = .ok (v, q')) :
    v.length = n ∧ ∀ r ∈ v, r.length = c.length ∧ ∀ b ∈ r, b = 0 ∨ b = 1 := by
  unfold Computer.measureReadouts at h
  rcases e1 : basisRotator c with _ | r
  · rw [e1] at h; cases h
  · rw [e1, except_ok_bind] at h
    rcases e2 : q.applyCircuit r with _ | q1
    · rw [e2] at h; cases h
    · rw [e2, except_ok_bind] at h; cases h
      refine ⟨by simp, ?_⟩
      intro x hx
      obtain ⟨k, _, rfl⟩ := List.mem_map.1 hx
      refine ⟨by simp, ?_⟩
      intro b hb
      obtain ⟨g, _, rfl⟩ := List.mem_map.1 hb
      split_ifs <;> simp

theorem rotate_state (q : Computer) (c : Circuit) (hq : q.WF) (hc : c.PauliString q.nqubit) :
    ∃ q1, q.applyCircuit (c.map rotOf) = .ok q1 ∧ q1.WF ∧ q1.nqubit = q.nqubit ∧ q1.psi = Circuit.op (c.map rotOf) q.psi ∧ ((∃ I, q.psi I ≠ 0) → ∃ I, q1.psi I ≠ 0) := by
  have hrf := rot_fits hc.fits
  have hre : ∀ g ∈ c.map rotOf, ExactGate g := by
    intro g hg
    obtain ⟨x, _, rfl⟩ := List.mem_map.1 hg
    exact rotOf_exact x
  obtain ⟨q1, e1, w1, n1, p1⟩ := applyCircuit_exact (c.map rotOf) hq hrf hre
  refine ⟨q1, e1, w1, n1, p1, ?_⟩
  rintro ⟨I, hI⟩
  by_contra hno
  push Not at hno
  have h0 : q1.psi = 0 := funext hno
  have hn := nrm_circuit hrf (fun g hg => (hre g hg).unitary) q.psi
  rw [← p1, h0, nrm_zero] at hn
  have hlt : I < 2 ^ q.nqubit := by
    by_contra hc
    exact hI (psi_onReg hq I (by omega))
  have := entry_le_nrm (ψ := q.psi) hlt
  rw [← hn] at this
  exact hI (norm_le_zero_iff.1 this)

/-- C32: every value `measure_circuit` returns for a Pauli string is a possible outcome: the state has a non-zero
component in the eigenspace `P = v` (the projection `(ψ + v·Pψ)/2` does not vanish).  For every non-zero state and
whatever is drawn. -/
theorem C32_outcome_possible (q : Computer) (s : Sampler) (c : Circuit) (n : ℕ) (hq : q.WF) (hc : c.PauliString q.nqubit) (hne : ∃ I, q.psi I ≠ 0) :
    ∃ v q', q.measureCircuit s c n = .ok (v, q') ∧ v.length = n ∧ SameState q q' ∧
      ∀ x ∈ v, (x = 1 ∨ x = -1) ∧ q.psi + (x : ℂ) • c.op q.psi ≠ 0 := by
  have hl : ∀ g ∈ c, IsXYZ g.label := fun g hg => (hc.gates g hg).letter
  obtain ⟨q1, e1, w1, n1, p1, h1⟩ := rotate_state q c hq hc
  refine ⟨(List.range n).map fun k => signValue c (s.draw q1.probs k), { q1 with coeff := q.coeff }, ?_, by simp, ⟨rfl, n1, WF.restore hq w1 n1⟩, ?_⟩
  · unfold Computer.measureCircuit
    rw [rotator_eq hl, except_ok_bind, e1, except_ok_bind]; rfl
  · intro x hx
    obtain ⟨k, _, rfl⟩ := List.mem_map.1 hx
    refine ⟨signValue_pm c _, ?_⟩
    intro h0
    have hd := draw_support q1 s (h1 hne) k
    set J := s.draw q1.probs k
    have : (Circuit.op (c.map rotOf) (q.psi + (signValue c J : ℂ) • c.op q.psi)) J = 0 := by rw [h0, map_zero]; rfl
    rw [map_add, map_smul, ← Module.End.mul_apply, ← zString_rot hc.gates hc.distinct, Module.End.mul_apply, ← p1, Pi.add_apply, Pi.smul_apply,
      zString_apply, smul_eq_mul, ← mul_assoc, ← Complex.ofReal_mul] at this
    have hs : signValue c J * signValue c J = 1 := by rcases signValue_pm c J with e | e <;> rw [e] <;> norm_num
    rw [hs, Complex.ofReal_one, one_mul] at this
    apply hd
    have h2 : (2 : ℂ) * q1.psi J = 0 := by rw [two_mul]; exact this
    exact (mul_eq_zero.1 h2).resolve_left two_ne_zero

/-- C32: the weights `measure_circuit` samples from follow the Born rule: the basis states it maps to `v` have total
weight `⟨ψ|(1 + v·P)/2|ψ⟩`. -/
theorem C32_born_rule (q : Computer) (c : Circuit) (v : ℝ) (hv : v = 1 ∨ v = -1) (hq : q.WF) (hc : c.PauliString q.nqubit) :
    ∃ r q1, basisRotator c = .ok r ∧ q.applyCircuit r = .ok q1 ∧
      ((∑ J ∈ (Finset.range (2 ^ q.nqubit)).filter (fun J => signValue c J = v), q1.probs.getD J 0 : ℝ) : ℂ) =
        inner q.nqubit q.psi ((1 / 2 : ℂ) • (q.psi + (v : ℂ) • c.op q.psi)) := by
  have hl : ∀ g ∈ c, IsXYZ g.label := fun g hg => (hc.gates g hg).letter
  have hrf := rot_fits hc.fits
  obtain ⟨q1, e1, w1, n1, p1, _⟩ := rotate_state q c hq hc
  refine ⟨_, q1, rotator_eq hl, e1, ?_⟩
  have hu : ∀ g ∈ c.map rotOf, MatUnitary g.target g.control g.mat := by
    intro g hg
    obtain ⟨x, _, rfl⟩ := List.mem_map.1 hg
    exact (rotOf_exact x).unitary
  rw [← inner_circuit hrf hu, map_smul, map_add, map_smul, ← Module.End.mul_apply (Circuit.op (c.map rotOf)) (Circuit.op c),
    ← zString_rot hc.gates hc.distinct, Module.End.mul_apply, ← p1]
  unfold inner
  rw [Finset.sum_filter, Complex.ofReal_sum]
  refine Finset.sum_congr rfl fun J _ => ?_
  rw [probs_eq, Pi.smul_apply, Pi.add_apply, Pi.smul_apply, zString_apply, smul_eq_mul, smul_eq_mul]
  have hm : (starRingEnd ℂ) (q1.psi J) * q1.psi J = ((‖q1.psi J‖ ^ 2 : ℝ) : ℂ) := by
    rw [mul_comm, Complex.mul_conj, Complex.normSq_eq_norm_sq]
  have : (starRingEnd ℂ) (q1.psi J) * (1 / 2 * (q1.psi J + (v : ℂ) * ((signValue c J : ℂ) * q1.psi J))) =
      (1 / 2 * (1 + v * signValue c J)) * ((starRingEnd ℂ) (q1.psi J) * q1.psi J) := by ring
  rw [this, hm]
  rcases signValue_pm c J with e | e <;> rcases hv with e' | e' <;> rw [e, e'] <;> norm_num

/-- C32: readouts are the bits, on the qubits of the string, of basis states with non-zero amplitude in the rotated
basis. -/
theorem C32_readouts_support (q : Computer) (s : Sampler) (c : Circuit) (n : ℕ) (hq : q.WF) (hc : c.PauliString q.nqubit) (hne : ∃ I, q.psi I ≠ 0) :
    ∃ r q1 v q', basisRotator c = .ok r ∧ q.applyCircuit r = .ok q1 ∧ q.measureReadouts s c n = .ok (v, q') ∧ v.length = n ∧ SameState q q' ∧
      ∀ x ∈ v, ∃ J < 2 ^ q.nqubit, q1.psi J ≠ 0 ∧ x = c.map fun g => if J.testBit g.target then 1 else 0 := by
  have hl : ∀ g ∈ c, IsXYZ g.label := fun g hg => (hc.gates g hg).letter
  obtain ⟨q1, e1, w1, n1, p1, h1⟩ := rotate_state q c hq hc
  refine ⟨_, q1, (List.range n).map fun k => c.map fun g => if (s.draw q1.probs k).testBit g.target then 1 else 0, { q1 with coeff := q.coeff },
    rotator_eq hl, e1, ?_, by simp, ⟨rfl, n1, WF.restore hq w1 n1⟩, ?_⟩
  · unfold Computer.measureReadouts
    rw [rotator_eq hl, except_ok_bind, e1, except_ok_bind]; rfl
  · intro x hx
    obtain ⟨k, _, rfl⟩ := List.mem_map.1 hx
    have hd := draw_support q1 s (h1 hne) k
    refine ⟨s.draw q1.probs k, ?_, hd, rfl⟩
    by_contra hge
    exact hd (psi_onReg w1 _ (by rw [n1]; omega))

/-- C32: `measure_z_readouts_fast(na, nb, n)` returns `n` readouts, each the bits `na..nb` of a basis state with
non-zero amplitude. -/
theorem C32_z_readouts_fast (q : Computer) (s : Sampler) (na nb n : ℕ) (hq : q.WF) (hne : ∃ I, q.psi I ≠ 0) :
    (q.measureZReadoutsFast s na nb n).length = n ∧
      ∀ x ∈ q.measureZReadoutsFast s na nb n, ∃ J < 2 ^ q.nqubit, q.psi J ≠ 0 ∧ x.length = nb + 1 - na ∧
        ∀ i < nb + 1 - na, x.getD i 0 = if J.testBit (na + i) then 1 else 0 := by
  refine ⟨by simp [Computer.measureZReadoutsFast], ?_⟩
  intro x hx
  obtain ⟨k, _, rfl⟩ := List.mem_map.1 hx
  have hd := draw_support q s hne k
  refine ⟨s.draw q.probs k, ?_, hd, by simp, ?_⟩
  · by_contra hge
    exact hd (psi_onReg hq _ (by omega))
  · intro i hi
    simp [List.getD_eq_getElem?_getD, List.getElem?_range' , hi]

/-! ### C33: `direct_gate_exp_val` -/

/-- C33 is false of the code: for every gate and state `direct_gate_exp_val` returns 0 and leaves the state multiplied by
the gate. -/
theorem C33_returns_zero (q : Computer) (g : Gate) (hq : q.WF) (ht : g.target < q.nqubit) (hc : g.control < q.nqubit) (hg : ExactGate g) :
    ∃ q', q.directGateExpVal g = .ok (0, q') ∧ q'.WF ∧ q'.psi = g.op q.psi := by
  obtain ⟨q2, e2, w2, n2, p2⟩ := applyGate_exact hq ht hc hg
  refine ⟨{ q2 with newCoeff := q2.newCoeff.map fun _ => 0 }, ?_, ⟨w2.nbasis, w2.len, ?_⟩, p2⟩
  · unfold Computer.directGateExpVal
    unfold Computer.applyGate at e2
    rcases e1 : (if g.nqubits = 1 then q.apply1 g else pure q) with _ | q1
    · rw [e1] at e2; cases e2
    · rw [e1, except_ok_bind] at e2
      rw [except_ok_bind, e2, except_ok_bind, w2.new, innerProd_eq 0 _ _ (by simp [hq.len, n2])]
      have : ∀ I, vec (List.replicate (2 ^ q2.nqubit) (0 : ℂ)) I = 0 := by
        intro I
        simp only [vec, List.getD_eq_getElem?_getD, List.getElem?_replicate]
        split_ifs <;> rfl
      simp [this, pure, Except.pure]
  · simp [w2.new]

/-- C33, concretely: on `|0⟩`, `direct_gate_exp_val(X)` leaves `|1⟩` behind, and `direct_gate_exp_val(Z)` returns 0
although `⟨0|Z|0⟩ = 1`. -/
theorem C33_refuted : ∃ q' q'', (Computer.init 1).directGateExpVal (gX 0) = .ok (0, q') ∧ q'.psi 1 = 1 ∧ (Computer.init 1).psi 1 = 0 ∧
    (Computer.init 1).directGateExpVal (gZ 0) = .ok (0, q'') ∧ inner 1 (Computer.init 1).psi ((gZ 0).op (Computer.init 1).psi) = 1 := by
  have hi : (Computer.init 1).psi = fun I => if I = 0 then 1 else 0 := init_psi 1
  obtain ⟨q', e1, _, p1⟩ := C33_returns_zero (Computer.init 1) (gX 0) (Computer.WF.init 1) (by decide) (by decide) (pauliGate_X 0).exact
  obtain ⟨q'', e2, _, p2⟩ := C33_returns_zero (Computer.init 1) (gZ 0) (Computer.WF.init 1) (by decide) (by decide) (pauliGate_Z 0).exact
  refine ⟨q', q'', e1, ?_, by rw [hi]; simp, e2, ?_⟩
  · rw [p1, op_gX, opX_apply, hi]; rfl
  · rw [op_gZ, hi]
    simp [inner, Finset.sum_range_succ, opZ_apply]

/-! Non-vacuity: a two-letter string on the three-qubit initial state meets the hypotheses of C30-C32. -/
example : (Computer.init 3).WF ∧ Circuit.PauliString 3 [gX 2, gY 0] ∧ ∃ I, (Computer.init 3).psi I ≠ 0 := by
  refine ⟨.init 3, ⟨?_, by simp [gX, gY], ?_⟩, 0, by rw [init_psi]; simp⟩
  · intro g hg
    simp only [List.mem_cons, List.not_mem_nil, or_false] at hg
    rcases hg with rfl | rfl
    · exact pauliGate_X 2
    · exact pauliGate_Y 0
  · intro g hg
    simp only [List.mem_cons, List.not_mem_nil, or_false] at hg
    rcases hg with rfl | rfl <;> decide

/-- schedules exist: one thread doing all the work in order, or one thread per iteration -/
example : Schedule := ⟨fun n => [List.range n], fun n => by simp⟩
example : Schedule := ⟨fun n => (List.range n).map fun i => [i], fun n => by rw [← List.flatMap_def]; simp⟩

/-- samplers exist -/
example : Nonempty Sampler := by
  classical
  refine ⟨⟨fun w _ => if h : ∃ i, 0 < w.getD i 0 then h.choose else 0, ?_⟩⟩
  intro w _ ⟨x, hx, hpos⟩ k
  have h : ∃ i, 0 < w.getD i 0 := by
    obtain ⟨i, hi, rfl⟩ := List.getElem_of_mem hx
    exact ⟨i, by simpa [List.getD_eq_getElem?_getD, hi] using hpos⟩
  simp only [dif_pos h]
  exact h.choose_spec

end QF
