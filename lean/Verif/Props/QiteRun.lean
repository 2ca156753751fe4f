import Verif.Props.Qite

/-!
C82: a whole run of quantum imaginary time evolution.
-/
namespace QF
namespace QiteAlg

/-- the numbers of the steps after which a Lanczos vector is kept -/
def lanczosTimes (A : QiteAlg) (K : ℕ) : List ℕ := if A.doLanczos then 0 :: (List.range' 1 K).filter (fun k => decide ((k : ℤ) % A.lanczosGap = 0)) else []

/-- the state `|0…0⟩` after the preparation circuit -/
noncomputable def reference (A : QiteAlg) : St := A.uprep.op (Computer.init A.nqb).psi

/-- the trajectory `ψ 0, …, ψ K` with coefficients `x k` and phases `ph k`, and what the object contains after `K` steps -/
structure Trajectory (A : QiteAlg) (σ : List Circuit) (K : ℕ) (st : QiteState) (ψ : ℕ → St) (x : ℕ → List ℝ) (ph : ℕ → ℂ) : Prop where
  start : ψ 0 = A.reference
  step : ∀ k < K, IsStep A σ (ψ k) (ph k • ψ (k + 1)) (x k) ∧ ‖ph k‖ = 1
  norm : ∀ k ≤ K, inner A.nqb (ψ k) (ψ k) = 1
  ekb : st.ekb = (List.range (K + 1)).map fun k => energy A.nqb A.ham.op (ψ k)
  wf : st.qc.WF ∧ st.qc.nqubit = A.nqb
  current : st.qc.psi = ψ K
  circuit : st.uqite.op (Computer.init A.nqb).psi = ψ K ∧ st.uqite.Fits A.nqb ∧ ∀ g ∈ st.uqite, ApiGate g ∧ ExactGate g
  phase : st.phase = ∏ k ∈ Finset.range K, ph k
  nParams : st.nParams = ∑ k ∈ Finset.range K, (A.kept (A.chosen σ (ψ k)) (x k)).length
  nCnot : st.nCnot = st.uqite.getNumCnots
  nMeas : st.nMeas = ∑ k ∈ Finset.range K, (A.ham.length * σ.length + (A.chosen σ (ψ k)).length * ((A.chosen σ (ψ k)).length + 1) / 2)
  lvecs : (∀ v ∈ st.lvecs, v.length = 2 ^ A.nqb) ∧ st.lvecs.map vec = (A.lanczosTimes K).map ψ
  hlvecs : (∀ v ∈ st.hlvecs, v.length = 2 ^ A.nqb) ∧ st.hlvecs.map vec = (A.lanczosTimes K).map fun k => A.ham.op (ψ k)


theorem cnots_append (c d : Circuit) : Circuit.getNumCnots (c ++ d) = c.getNumCnots + d.getNumCnots := by
  unfold Circuit.getNumCnots
  rw [List.foldl_append]
  generalize (List.foldl _ 0 c : ℤ) = m
  induction d generalizing m with
  | nil => simp
  | cons g d ih =>
    simp only [List.foldl_cons]
    rw [ih]
    conv_rhs => rw [ih]
    split_ifs <;> ring

theorem times_le {A : QiteAlg} {K k : ℕ} (h : k ∈ A.lanczosTimes K) : k ≤ K := by
  unfold lanczosTimes at h
  split_ifs at h
  · rcases List.mem_cons.1 h with rfl | h
    · omega
    · have := (List.mem_filter.1 h).1
      rw [List.mem_range'_1] at this; omega
  · simp at h

theorem times_succ {A : QiteAlg} (K : ℕ) (h : A.doLanczos = true) :
    A.lanczosTimes (K + 1) = A.lanczosTimes K ++ if ((K + 1 : ℕ) : ℤ) % A.lanczosGap = 0 then [K + 1] else [] := by
  unfold lanczosTimes
  rw [if_pos h, if_pos h, List.range'_1_concat, List.filter_append, List.cons_append, add_comm 1 K]
  congr 2
  by_cases hd : ((K + 1 : ℕ) : ℤ) % A.lanczosGap = 0
  · rw [if_pos hd, List.filter_cons_of_pos (by simpa using hd)]; rfl
  · rw [if_neg hd, List.filter_cons_of_neg (by simpa using hd)]; rfl

theorem keep_ok {A : QiteAlg} (hA : A.Ready) {st : QiteState} (hq : st.qc.WF) (hn : st.qc.nqubit = A.nqb) :
    ∃ p, A.keep st = .ok { st with lvecs := st.lvecs ++ [st.qc.coeff], hlvecs := st.hlvecs ++ [p] } ∧ st.qc.coeff.length = 2 ^ A.nqb ∧ p.length = 2 ^ A.nqb ∧
      vec p = A.ham.op st.qc.psi := by
  have hl : st.qc.coeff.length = 2 ^ A.nqb := by rw [hq.len, hn]
  obtain ⟨h, e, w, m, f⟩ := C24_apply_operator ((Computer.init A.nqb).setCoeffVec st.qc.coeff) A.ham (reset_wf hl) (fun t ht => by
    have := (hA.ham t ht).2
    exact ⟨this.fits, fun g hg => (this.gates g hg).exact⟩)
  have m : h.nqubit = A.nqb := m
  refine ⟨h.coeff, ?_, hl, by rw [w.len, m], f⟩
  unfold keep
  rw [e, except_ok_bind]; rfl

/-- the step is well defined: with the selection always, without it as long as `1 - 2 db ⟨H⟩ > 0` in all normalised states -/
def StepDefined (A : QiteAlg) (σ : List Circuit) : Prop :=
  A.sparseSb = true ∨ σ = [] ∨ ∀ φ, inner A.nqb φ φ = 1 → 0 < 1 - 2 * A.db * energy A.nqb A.ham.op φ

theorem trajectory_succ {A : QiteAlg} (hA : A.Ready) {ls : LstsqOracle} (hls : IsLstsq ls) {par : Option Schedule} (hp : A.GoodBuild par) (hdb : A.db ≠ 0)
    {σ : List Circuit} (hσ : ∀ c ∈ σ, c.PauliString A.nqb) (hd : A.StepDefined σ) (hg : A.doLanczos = true → A.lanczosGap ≠ 0) {K : ℕ} {st : QiteState} {ψ : ℕ → St}
    {x : ℕ → List ℝ} {ph : ℕ → ℂ} (h : A.Trajectory σ K st ψ x ph) :
    ∃ st' ψ' x' ph', A.loopStep ls par (poolOf σ) st (K + 1) = .ok st' ∧ A.Trajectory σ (K + 1) st' ψ' x' ph' := by
  have hn1 : inner A.nqb st.qc.psi st.qc.psi = 1 := by rw [h.current]; exact h.norm K le_rfl
  obtain ⟨s, y, C, p, e, i1, i2, i3, i4, i5, i6, i7, i8, i9, i10, i11, i12, i13, i14, i15, i16⟩ := step_ok hA hls hp hdb hσ h.wf.1 h.wf.2 hn1
    (by rw [h.ekb, List.range_succ, List.map_append, List.map_singleton, List.getLast?_append]; simp [h.current])
    (by rcases hd with hd | hd | hd
        · exact .inr (.inl hd)
        · exact .inr (.inr hd)
        · exact .inl (hd _ hn1))
  set ψ' : ℕ → St := fun k => if k ≤ K then ψ k else s.qc.psi with hψ'
  set x' : ℕ → List ℝ := fun k => if k < K then x k else y with hx'
  set ph' : ℕ → ℂ := fun k => if k < K then ph k else p with hph'
  have a1 : ∀ k ≤ K, ψ' k = ψ k := fun k hk => by simp [hψ', hk]
  have a2 : ψ' (K + 1) = s.qc.psi := by simp [hψ']
  have a3 : ∀ k < K, x' k = x k := fun k hk => by simp [hx', hk]
  have a4 : x' K = y := by simp [hx']
  have a5 : ∀ k < K, ph' k = ph k := fun k hk => by simp [hph', hk]
  have a6 : ph' K = p := by simp [hph']
  have tm : ∀ f : (ℕ → St) → ℕ → St, (∀ k, ∀ ψ1 ψ2 : ℕ → St, ψ1 k = ψ2 k → f ψ1 k = f ψ2 k) → (A.lanczosTimes K).map (f ψ) = (A.lanczosTimes K).map (f ψ') :=
    fun f hf => List.map_congr_left fun k hk => (hf k _ _ (a1 k (times_le hk))).symm
  have base : ∀ s' : QiteState, s'.uqite = s.uqite → s'.qc = s.qc → s'.ekb = s.ekb → s'.phase = s.phase → s'.nParams = s.nParams → s'.nCnot = s.nCnot → s'.nMeas = s.nMeas →
      ((∀ v ∈ s'.lvecs, v.length = 2 ^ A.nqb) ∧ s'.lvecs.map vec = (A.lanczosTimes (K + 1)).map ψ') →
      ((∀ v ∈ s'.hlvecs, v.length = 2 ^ A.nqb) ∧ s'.hlvecs.map vec = (A.lanczosTimes (K + 1)).map fun k => A.ham.op (ψ' k)) →
      A.Trajectory σ (K + 1) s' ψ' x' ph' := by
    intro s' b1 b2 b3 b4 b5 b6 b7 b8 b9
    refine ⟨by rw [a1 0 (by omega)]; exact h.start, ?_, ?_, ?_, by rw [b2]; exact ⟨i3, i4⟩, by rw [b2, a2], ?_, ?_, ?_, ?_, ?_, b8, b9⟩
    · intro k hk
      by_cases hk' : k < K
      · rw [a1 k (by omega), a1 (k + 1) (by omega), a3 k hk', a5 k hk']; exact h.step k hk'
      · obtain rfl : k = K := by omega
        rw [a1 k le_rfl, a2, a4, a6, ← h.current]; exact ⟨i1, i2⟩
    · intro k hk
      by_cases hk' : k ≤ K
      · rw [a1 k hk']; exact h.norm k hk'
      · obtain rfl : k = K + 1 := by omega
        rw [a2]; exact i5
    · rw [b3, i6, h.ekb, List.range_succ (n := K + 1), List.map_append, List.map_singleton, a2]
      congr 1
      refine List.map_congr_left fun k hk => ?_
      rw [a1 k (by have := List.mem_range.1 hk; omega)]
    · rw [b1, i7, a2]
      refine ⟨?_, ?_, ?_⟩
      · rw [Circuit.op_append, Module.End.mul_apply, h.circuit.1, i10, h.current]
      · intro g hg
        rcases List.mem_append.1 hg with hg | hg
        · exact h.circuit.2.1 g hg
        · exact i8 g hg
      · intro g hg
        rcases List.mem_append.1 hg with hg | hg
        · exact h.circuit.2.2 g hg
        · exact i9 g hg
    · rw [b4, i11, h.phase, Finset.prod_range_succ, a6]
      congr 1
      exact Finset.prod_congr rfl fun k hk => (a5 k (Finset.mem_range.1 hk)).symm
    · rw [b5, i12, h.nParams, Finset.sum_range_succ, a4, a1 K le_rfl, h.current]
      congr 1
      exact Finset.sum_congr rfl fun k hk => by rw [a3 k (Finset.mem_range.1 hk), a1 k (le_of_lt (Finset.mem_range.1 hk))]
    · rw [b6, i13, h.nCnot, b1, i7, cnots_append]
    · rw [b7, i14, h.nMeas, Finset.sum_range_succ, a1 K le_rfl, h.current, add_assoc]
      congr 1
      exact Finset.sum_congr rfl fun k hk => by rw [a1 k (le_of_lt (Finset.mem_range.1 hk))]
  unfold loopStep
  rw [e, except_ok_bind]
  by_cases hl : A.doLanczos = true
  · rw [if_pos hl, if_neg (hg hl)]
    by_cases hm : ((K + 1 : ℕ) : ℤ) % A.lanczosGap = 0
    · rw [if_pos hm]
      obtain ⟨v, k1, k2, k3, k4⟩ := keep_ok hA (st := s) i3 i4
      refine ⟨_, ψ', x', ph', k1, base _ rfl rfl rfl rfl rfl rfl rfl ⟨?_, ?_⟩ ⟨?_, ?_⟩⟩
      · intro u hu
        rcases List.mem_append.1 hu with hu | hu
        · rw [i15] at hu; exact h.lvecs.1 u hu
        · rw [List.mem_singleton.1 hu]; exact k2
      · show (s.lvecs ++ [s.qc.coeff]).map vec = _
        rw [times_succ K hl, if_pos hm, List.map_append, List.map_append, i15, h.lvecs.2, tm (fun f => f) (fun _ _ _ h => h)]
        congr 1
        show [s.qc.psi] = [ψ' (K + 1)]
        rw [a2]
      · intro u hu
        rcases List.mem_append.1 hu with hu | hu
        · rw [i16] at hu; exact h.hlvecs.1 u hu
        · rw [List.mem_singleton.1 hu]; exact k3
      · show (s.hlvecs ++ [v]).map vec = _
        rw [times_succ K hl, if_pos hm, List.map_append, List.map_append, i16, h.hlvecs.2, tm (fun f k => A.ham.op (f k)) (fun k a b h => by rw [h])]
        congr 1
        show [vec v] = [A.ham.op (ψ' (K + 1))]
        rw [a2, k4]
    · rw [if_neg hm]
      refine ⟨s, ψ', x', ph', rfl, base _ rfl rfl rfl rfl rfl rfl rfl ⟨by rw [i15]; exact h.lvecs.1, ?_⟩ ⟨by rw [i16]; exact h.hlvecs.1, ?_⟩⟩
      · rw [times_succ K hl, if_neg hm, List.append_nil, i15, h.lvecs.2, tm (fun f => f) (fun _ _ _ h => h)]
      · rw [times_succ K hl, if_neg hm, List.append_nil, i16, h.hlvecs.2, tm (fun f k => A.ham.op (f k)) (fun k a b h => by rw [h])]
  · rw [if_neg hl]
    have t0 : ∀ K, A.lanczosTimes K = [] := fun K => by unfold lanczosTimes; rw [if_neg hl]
    refine ⟨s, ψ', x', ph', rfl, base _ rfl rfl rfl rfl rfl rfl rfl ⟨by rw [i15]; exact h.lvecs.1, ?_⟩ ⟨by rw [i16]; exact h.hlvecs.1, ?_⟩⟩
    · rw [i15, h.lvecs.2, t0, t0]; rfl
    · rw [i16, h.hlvecs.2, t0, t0]; rfl

/-- the reference state and the object before the loop -/
theorem trajectory_zero {A : QiteAlg} (hA : A.Ready) (σ : List Circuit) :
    ∃ q, (Computer.init A.nqb).applyCircuit A.uprep = .ok q ∧ q.WF ∧ q.nqubit = A.nqb ∧ q.psi = A.reference ∧ inner A.nqb A.reference A.reference = 1 ∧
      ∃ st, (let s : QiteState := { uqite := Circuit.addCircuit [] A.uprep, qc := q, ekb := [energy A.nqb A.ham.op A.reference], phase := 1, nParams := 0, nCnot := A.uprep.getNumCnots, nMeas := 0, lvecs := [], hlvecs := [] }
        if A.doLanczos then A.keep s else pure s) = .ok st ∧ A.Trajectory σ 0 st (fun _ => A.reference) (fun _ => []) (fun _ => 1) := by
  obtain ⟨q, e, w, n, f⟩ := applyCircuit_exact (Computer.WF.init A.nqb) (c := A.uprep) hA.prep.1 (fun g hg => (hA.prep.2 g hg).2)
  have f : q.psi = A.reference := f
  have n : q.nqubit = A.nqb := n
  have h1 : inner A.nqb A.reference A.reference = 1 := by
    unfold reference
    rw [inner_circuit hA.prep.1 (fun g hg => C02_unitary (hA.prep.2 g hg).1), init_psi]
    simp [inner]
  refine ⟨q, e, w, n, f, h1, ?_⟩
  have base : ∀ s' : QiteState, s'.uqite = A.uprep → s'.qc = q → s'.ekb = [energy A.nqb A.ham.op A.reference] → s'.phase = 1 → s'.nParams = 0 → s'.nCnot = A.uprep.getNumCnots →
      s'.nMeas = 0 → ((∀ v ∈ s'.lvecs, v.length = 2 ^ A.nqb) ∧ s'.lvecs.map vec = (A.lanczosTimes 0).map fun _ => A.reference) →
      ((∀ v ∈ s'.hlvecs, v.length = 2 ^ A.nqb) ∧ s'.hlvecs.map vec = (A.lanczosTimes 0).map fun _ => A.ham.op A.reference) →
      A.Trajectory σ 0 s' (fun _ => A.reference) (fun _ => []) (fun _ => 1) := by
    intro s' b1 b2 b3 b4 b5 b6 b7 b8 b9
    exact ⟨rfl, fun k hk => absurd hk (by omega), fun k _ => h1, by rw [b3]; rfl, by rw [b2]; exact ⟨w, n⟩, by rw [b2]; exact f,
      by rw [b1]; exact ⟨rfl, hA.prep⟩, by rw [b4]; simp, by rw [b5]; simp, by rw [b6, b1], by rw [b7]; simp, b8, b9⟩
  by_cases hl : A.doLanczos = true
  · simp only [hl, if_true]
    obtain ⟨v, k1, k2, k3, k4⟩ := keep_ok hA (st := { uqite := Circuit.addCircuit [] A.uprep, qc := q, ekb := [energy A.nqb A.ham.op A.reference], phase := 1, nParams := 0, nCnot := A.uprep.getNumCnots, nMeas := 0, lvecs := [], hlvecs := [] }) w n
    refine ⟨_, k1, base _ (by simp [addCircuit_eq]) rfl rfl rfl rfl rfl rfl ⟨by simpa using k2, ?_⟩ ⟨by simpa using k3, ?_⟩⟩
    · simp only [lanczosTimes, hl, if_true]
      show [q.psi] = [A.reference]
      rw [f]
    · simp only [lanczosTimes, hl, if_true]
      show [vec v] = [A.ham.op A.reference]
      rw [k4, ← f]
  · simp only [hl]
    refine ⟨_, rfl, base _ (by simp [addCircuit_eq]) rfl rfl rfl rfl rfl rfl ⟨by simp, ?_⟩ ⟨by simp, ?_⟩⟩ <;> simp [lanczosTimes, hl]

/-- C82: `evolve()` makes `nb - 1` steps (none if `nb ≤ 1`) -/
theorem C82_evolve {A : QiteAlg} (hA : A.Ready) {ls : LstsqOracle} (hls : IsLstsq ls) {par : Option Schedule} (hp : A.GoodBuild par) (hdb : A.db ≠ 0)
    {σ : List Circuit} (hσ : ∀ c ∈ σ, c.PauliString A.nqb) (hd : A.StepDefined σ) (hg : A.doLanczos = true → A.lanczosGap ≠ 0) (nb : ℤ) :
    ∃ st ψ x ph, A.evolve ls par (poolOf σ) (energy A.nqb A.ham.op A.reference) nb = .ok st ∧ A.Trajectory σ (nb - 1).toNat st ψ x ph := by
  obtain ⟨q, e, -, -, -, -, st0, e0, t0⟩ := trajectory_zero hA σ
  have key : ∀ K : ℕ, ∃ st ψ x ph, (List.range' 1 K).foldlM (A.loopStep ls par (poolOf σ)) st0 = .ok st ∧ A.Trajectory σ K st ψ x ph := by
    intro K
    induction K with
    | zero => exact ⟨st0, _, _, _, rfl, t0⟩
    | succ K ih =>
      obtain ⟨st, ψ, x, ph, e1, h1⟩ := ih
      obtain ⟨st', ψ', x', ph', e2, h2⟩ := trajectory_succ hA hls hp hdb hσ hd hg h1
      refine ⟨st', ψ', x', ph', ?_, h2⟩
      rw [List.range'_1_concat, List.foldlM_append, e1, except_ok_bind, List.foldlM_cons, add_comm 1 K, e2]; rfl
  obtain ⟨st, ψ, x, ph, e1, h1⟩ := key (nb - 1).toNat
  refine ⟨st, ψ, x, ph, ?_, h1⟩
  unfold evolve
  rw [addCircuit_eq, List.nil_append] at *
  show (Computer.init A.nqb).applyCircuit A.uprep >>= _ = _
  rw [e, except_ok_bind]
  simp only at e0 ⊢
  by_cases hl : A.doLanczos = true
  · rw [if_pos hl] at e0 ⊢
    rw [e0, except_ok_bind]; exact e1
  · rw [if_neg hl] at e0 ⊢
    rw [e0, except_ok_bind]; exact e1

/-- C82: what `run` leaves, without the Lanczos procedure: `int(beta/db)` steps (none if that is not positive) of the trajectory; the reported energy is that of the last state. -/
theorem C82_run {A : QiteAlg} (hA : A.Ready) {ls : LstsqOracle} (hls : IsLstsq ls) {par : Option Schedule} (hp : A.GoodBuild par) (hdb : A.db ≠ 0)
    {σ : List Circuit} (hσ : ∀ c ∈ σ, c.PauliString A.nqb) (hd : A.StepDefined σ) (hl : A.doLanczos = false)
    (N : SQOpPool.NextPerm) (o : SQOperator.DescSort) (so : QubitOperator.SortOracle) (fuel : ℕ) (eig : EigOracle) (hpool : A.buildExpansionPool N o so fuel = .ok (poolOf σ)) :
    ∃ st ψ x ph, A.run N o so fuel ls eig par = .ok (st, poolOf σ, energy A.nqb A.ham.op (ψ (pyTrunc (A.beta / A.db)).toNat), none) ∧
      A.Trajectory σ (pyTrunc (A.beta / A.db)).toNat st ψ x ph := by
  obtain ⟨q, e, w, n, f, h1, -⟩ := trajectory_zero hA σ
  obtain ⟨q', e2, -⟩ := expVal_any hA hp w n
  obtain ⟨st, ψ, x, ph, e3, h3⟩ := C82_evolve hA hls hp hdb hσ hd (by simp [hl]) (pyTrunc (A.beta / A.db) + 1)
  rw [add_sub_cancel_right] at h3
  refine ⟨st, ψ, x, ph, ?_, h3⟩
  unfold run nbeta
  rw [if_neg hdb, except_ok_bind, e, except_ok_bind, e2, except_ok_bind]
  simp only
  rw [hpool, except_ok_bind]
  have : (inner A.nqb q.psi (A.ham.op q.psi)).re = energy A.nqb A.ham.op A.reference := by rw [f]; rfl
  rw [this, e3, except_ok_bind, h3.ekb, List.range_succ, List.map_append, List.map_singleton, List.getLast?_append]
  simp [hl]
  rfl

/-- C82: every energy of the run is at least every lower bound of the energies of normalised states, so no step goes below the ground state. -/
theorem C82_variational {A : QiteAlg} {σ : List Circuit} {K : ℕ} {st : QiteState} {ψ : ℕ → St} {x : ℕ → List ℝ} {ph : ℕ → ℂ} (h : A.Trajectory σ K st ψ x ph)
    {E0 : ℝ} (hE : ∀ φ, inner A.nqb φ φ = 1 → E0 ≤ energy A.nqb A.ham.op φ) : st.ekb.length = K + 1 ∧ ∀ E ∈ st.ekb, E0 ≤ E := by
  rw [h.ekb]
  refine ⟨by simp, fun E hm => ?_⟩
  obtain ⟨k, hk, rfl⟩ := List.mem_map.1 hm
  exact hE _ (h.norm k (by have := List.mem_range.1 hk; omega))

/-- C82: `db = 0` divides by zero before anything else, and a Lanczos gap of zero divides by zero in the first step. -/
theorem C82_zero (N : SQOpPool.NextPerm) (o : SQOperator.DescSort) (so : QubitOperator.SortOracle) (fuel : ℕ) (ls : LstsqOracle) (eig : EigOracle) (par : Option Schedule) (A : QiteAlg) :
    (A.db = 0 → A.run N o so fuel ls eig par = .error .zeroDivisionError) ∧
    (A.doLanczos = true → A.lanczosGap = 0 → ∀ sig st st' k, A.step ls par sig st = .ok st' → A.loopStep ls par sig st k = .error .zeroDivisionError) := by
  refine ⟨fun h => ?_, fun h1 h2 sig st st' k e => ?_⟩
  · unfold run nbeta
    rw [if_pos h]; rfl
  · unfold loopStep
    rw [e, except_ok_bind, if_pos h1, if_pos h2]

end QiteAlg
end QF
