import Verif.Lemmas.QPEProb
import Mathlib.Analysis.Real.Pi.Bounds

/-!
C80: what `QPE.run` returns.  C81: its probability of success.
-/
namespace QF

/-- the `a` binary digits of `m`, most significant first -/
def bitsOf (a m : ℕ) : List ℕ := (List.range a).map fun i => (m.testBit (a - 1 - i)).toNat

theorem blockVal_testBit (I : ℕ) : ∀ (L na i : ℕ), i < L → (blockVal I na L).testBit (L - 1 - i) = I.testBit (na + i) := by
  intro L
  induction L with
  | zero => intro _ i h; omega
  | succ L ih =>
    intro na i hi
    rw [blockVal_succ, mul_comm, Nat.testBit_two_pow_mul_add _ (blockVal_lt I L (na + 1))]
    rcases Nat.eq_zero_or_pos i with rfl | h
    · rw [if_neg (by omega)]
      simp
      cases I.testBit na <;> rfl
    · rw [if_pos (by omega), show L + 1 - 1 - i = L - 1 - (i - 1) by omega, ih _ _ (by omega)]
      congr 1; omega

/-- the digits of the number in a block are the bits of the block -/
theorem bitsOf_blockVal (I n a : ℕ) : bitsOf a (blockVal I n a) = (List.range a).map fun i => (I.testBit (n + i)).toNat := by
  unfold bitsOf
  refine List.map_congr_left fun i hi => ?_
  rw [blockVal_testBit I a n i (by simpa using hi)]

theorem sum_map_range (f : ℕ → ℝ) (a : ℕ) : ((List.range a).map f).sum = ∑ i ∈ Finset.range a, f i := by
  induction a with
  | zero => simp
  | succ a ih => rw [List.range_succ, List.map_append, List.sum_append, ih, Finset.sum_range_succ]; simp

theorem phaseOf_map (f : ℕ → ℕ) (a : ℕ) : QpeAlg.phaseOf ((List.range a).map f) = ∑ i ∈ Finset.range a, (f i : ℝ) / 2 ^ (i + 1) := by
  unfold QpeAlg.phaseOf
  rw [← sum_map_range]
  congr 1
  apply List.ext_getElem
  · simp
  · intro i h1 h2; simp

/-- `sum(z / 2**i)` over the digits of `m` is `m / 2^a` -/
theorem phaseOf_bitsOf (a m : ℕ) (hm : m < 2 ^ a) : QpeAlg.phaseOf (bitsOf a m) = m / 2 ^ a := by
  have e : blockVal (setBlock 0 0 a m) 0 a = m := blockVal_setBlock 0 a 0 m hm
  have h : QpeAlg.phaseOf (bitsOf a (blockVal (setBlock 0 0 a m) 0 a)) = (blockVal (setBlock 0 0 a m) 0 a : ℝ) / 2 ^ a := by
    rw [bitsOf_blockVal, phaseOf_map]
    unfold blockVal
    push_cast
    rw [Finset.sum_div]
    refine Finset.sum_congr rfl fun i hi => ?_
    have hi := Finset.mem_range.1 hi
    rw [show (2 : ℝ) ^ a = 2 ^ (a - 1 - i) * 2 ^ (i + 1) by rw [← pow_add]; congr 1; omega]
    field_simp
  rw [e] at h
  exact h

theorem zCirc_ok (A : QpeAlg) (na : ℕ) : A.zCirc na = .ok ((List.range' A.nqb na).map gZ) := by
  unfold QpeAlg.zCirc
  rw [foldlM_addGate _ gZ _ (fun j _ => ?_)]
  · rfl
  · unfold pyGate2
    rw [if_neg (by decide), if_pos ⟨rfl, by decide⟩, (makeGate_of_made (.Z j 0) : makeGate "Z" j j 0 = .ok (gZ j))]

/-- the measurement, in either mode: each readout is the list of ancilla bits of a basis state with non-zero amplitude -/
noncomputable def QpeAlg.readoutsOf (A : QpeAlg) (s : Sampler) (na : ℕ) (q : Computer) : Except Exc (List (List ℕ)) :=
  if A.fast then pure (q.measureZReadoutsFast s A.nqb (A.nqb + na - 1) A.nruns) else do
    let zc ← A.zCirc na
    let (z, _) ← q.measureReadouts s zc A.nruns
    pure z

theorem readoutsOf_ok (A : QpeAlg) (s : Sampler) (na : ℕ) (hna : 1 ≤ na) (q : Computer) (hq : q.WF) (hn : q.nqubit = A.nqb + na) (hne : ∃ I, q.psi I ≠ 0) :
    ∃ z, A.readoutsOf s na q = .ok z ∧ z.length = A.nruns ∧ ∀ r ∈ z, ∃ J, q.psi J ≠ 0 ∧ r = bitsOf na (blockVal J A.nqb na) := by
  have hb : ∀ (b : Bool), (if b = true then 1 else 0) = b.toNat := by decide
  unfold QpeAlg.readoutsOf
  cases A.fast
  · obtain ⟨r, q1, v, q', e1, e2, e3, e4, _, e5⟩ := C32_readouts_support q s ((List.range' A.nqb na).map gZ) A.nruns hq ⟨by
        intro g hg
        obtain ⟨j, _, rfl⟩ := List.mem_map.1 hg
        exact pauliGate_Z j, by
        rw [List.map_map]
        have : (Gate.target ∘ gZ) = id := rfl
        rw [this, List.map_id]
        exact List.nodup_range', by
        intro g hg
        obtain ⟨j, hj, rfl⟩ := List.mem_map.1 hg
        have := List.mem_range'_1.1 hj
        rw [hn]
        exact ⟨this.2, this.2⟩⟩ hne
    refine ⟨v, ?_, e4, fun x hx => ?_⟩
    · rw [if_neg (by simp), zCirc_ok, except_ok_bind, e3, except_ok_bind]; rfl
    · obtain ⟨J, _, h2, h3⟩ := e5 x hx
      refine ⟨J, ?_, ?_⟩
      · have : q1.psi = q.psi := by
          have hr := rotator_eq (c := (List.range' A.nqb na).map gZ) (by
            intro g hg
            obtain ⟨j, _, rfl⟩ := List.mem_map.1 hg
            exact (pauliGate_Z j).letter)
          rw [hr] at e1
          cases e1
          have hm : ((List.range' A.nqb na).map gZ).map rotOf = (List.range' A.nqb na).map gI := by
            rw [List.map_map]; rfl
          rw [hm] at e2
          obtain ⟨q2, f1, _, _, f4⟩ := applyCircuit_exact ((List.range' A.nqb na).map gI) hq (by
            intro g hg
            obtain ⟨j, hj, rfl⟩ := List.mem_map.1 hg
            have := List.mem_range'_1.1 hj
            rw [hn]
            exact ⟨this.2, this.2⟩) (by
            intro g hg
            obtain ⟨j, _, rfl⟩ := List.mem_map.1 hg
            exact exact_I j)
          rw [e2] at f1
          cases f1
          rw [f4]
          have : ∀ l : List ℕ, Circuit.op (l.map gI) = 1 := by
            intro l
            induction l with
            | nil => rfl
            | cons j l ih =>
              show Circuit.op (l.map gI) * (gI j).op = 1
              have := (makeGate_spec (make_I j 0)).2.2.2
              simp [stdGate] at this
              rw [ih, ← this, one_mul]
          rw [this, Module.End.one_apply]
        rwa [this] at h2
      · rw [h3, bitsOf_blockVal, List.map_map]
        apply List.ext_getElem
        · simp
        · intro i _ _
          simp only [List.getElem_map, List.getElem_range, List.getElem_range', Function.comp_apply, one_mul]
          show (if J.testBit (A.nqb + i) = true then 1 else 0) = _
          rw [hb]
  · obtain ⟨h1, h2⟩ := C32_z_readouts_fast q s A.nqb (A.nqb + na - 1) A.nruns hq hne
    refine ⟨_, rfl, h1, fun x hx => ?_⟩
    obtain ⟨J, _, j2, j3, j4⟩ := h2 x hx
    refine ⟨J, j2, ?_⟩
    rw [bitsOf_blockVal]
    have hl : A.nqb + na - 1 + 1 - A.nqb = na := by omega
    rw [hl] at j3 j4
    apply List.ext_getElem
    · simp [j3]
    · intro i hi hi'
      have := j4 i (by omega)
      rw [List.getD_eq_getElem _ _ hi] at this
      rw [this, List.getElem_map, List.getElem_range, hb]

/-! ### the energy -/

/-- an energy `E` with `e^{-iEt} = e^{2πiφ}` -/
def IsAlias (t φ E : ℝ) : Prop := ∃ k : ℤ, E = -2 * Real.pi * (φ + k) / t

/-- the alias nearest to the guess -/
def NearestAlias (t g φ E : ℝ) : Prop := IsAlias t φ E ∧ ∀ E', IsAlias t φ E' → |E - g| ≤ |E' - g|

theorem isAlias_iff {t φ E : ℝ} (ht : t ≠ 0) : IsAlias t φ E ↔ Complex.exp (-Complex.I * E * t) = ee φ := by
  unfold IsAlias ee
  rw [Complex.exp_eq_exp_iff_exists_int]
  have hp := Complex.ofReal_ne_zero.2 Real.pi_ne_zero
  constructor
  · rintro ⟨k, rfl⟩
    refine ⟨k, ?_⟩
    have : (t : ℂ) ≠ 0 := Complex.ofReal_ne_zero.2 ht
    push_cast; field_simp
  · rintro ⟨k, hk⟩
    refine ⟨k, ?_⟩
    have h1 : ((-(E * t) : ℝ) : ℂ) = ((2 * Real.pi * (φ + k) : ℝ) : ℂ) := by
      apply mul_left_cancel₀ Complex.I_ne_zero
      push_cast
      linear_combination hk
    have h2 : -(E * t) = 2 * Real.pi * (φ + k) := by exact_mod_cast h1
    field_simp; linarith

theorem pyRound_near (x : ℝ) : |(pyRound x : ℝ) - x| ≤ 1 / 2 := by
  have h1 := Int.floor_le x
  have h2 := Int.lt_floor_add_one x
  unfold pyRound
  rw [abs_le]
  split_ifs <;> push_cast <;> constructor <;> linarith

/-- C80: the energy computed from a phase in `[0, 1)` is, among all energies with that phase, the one nearest to the guess. -/
theorem C80_energy (A : QpeAlg) (ht : A.t ≠ 0) (φ : ℝ) (h0 : 0 ≤ φ) (h1 : φ < 1) : ∃ E, A.energyOf φ = .ok E ∧ NearestAlias A.t A.guess φ E := by
  set p := A.guessPeriods with hp
  set g := A.t * A.guess / (-2 * Real.pi) with hg
  have hπ := Real.pi_pos
  have hpg : |(p : ℝ) - g| ≤ 1 / 2 := pyRound_near g
  rw [abs_le] at hpg
  have key : ∀ c : ℝ, |-2 * Real.pi * c / A.t - A.guess| = 2 * Real.pi / |A.t| * |c - g| := by
    intro c
    have : -2 * Real.pi * c / A.t - A.guess = -(2 * Real.pi / A.t) * (c - g) := by rw [hg]; field_simp; ring
    rw [this, abs_mul, abs_neg, abs_div, abs_of_pos (by positivity : 0 < 2 * Real.pi)]
  have hs : 0 < 2 * Real.pi / |A.t| := div_pos (by positivity) (abs_pos.2 ht)
  refine ⟨_, by unfold QpeAlg.energyOf; rw [if_neg ht], ?_, ?_⟩
  · split_ifs
    · exact ⟨p, by rw [sub_zero]⟩
    · exact ⟨p - 1, by push_cast; rw [add_sub_assoc]⟩
  · rintro E' ⟨k, rfl⟩
    have e1 := key (φ + p - 0)
    have e2 := key (φ + p - 1)
    have e3 := key (φ + k)
    have hmin : |φ + p - 0 - g| ≤ |φ + k - g| ∨ |φ + p - 1 - g| ≤ |φ + k - g| := by
      rcases lt_trichotomy k p with h | h | h
      · right
        have : (k : ℝ) ≤ p - 1 := by exact_mod_cast (by omega : k ≤ p - 1)
        by_cases h3 : φ + p - 1 - g ≤ 0
        · rw [abs_of_nonpos h3, abs_of_nonpos (by linarith)]; linarith
        · rw [abs_of_pos (by linarith)]
          by_cases h4 : k = p - 1
          · rw [h4]; push_cast; rw [show φ + ((p : ℝ) - 1) - g = φ + p - 1 - g by ring]; exact le_abs_self _
          · have : (k : ℝ) ≤ p - 2 := by exact_mod_cast (by omega : k ≤ p - 2)
            rw [abs_of_nonpos (by linarith)]; linarith
      · left; rw [h, sub_zero]
      · left
        have : (p : ℝ) + 1 ≤ k := by exact_mod_cast h
        rw [abs_of_nonneg (a := φ + k - g) (by linarith)]
        rw [abs_le]; constructor <;> linarith
    split_ifs with h
    · rw [e1, e3]
      rw [e1, e2] at h
      have h := lt_of_mul_lt_mul_left h hs.le
      refine mul_le_mul_of_nonneg_left ?_ hs.le
      rcases hmin with h' | h' <;> linarith
    · rw [e2, e3]
      rw [e1, e2] at h
      have h := not_lt.1 fun hc => h (mul_lt_mul_of_pos_left hc hs)
      refine mul_le_mul_of_nonneg_left ?_ hs.le
      rcases hmin with h' | h' <;> linarith

/-- C80: an energy closer to the guess than `π/|t|` is returned. -/
theorem C80_energy_window (A : QpeAlg) (ht : A.t ≠ 0) (φ E : ℝ) (h0 : 0 ≤ φ) (h1 : φ < 1) (hE : IsAlias A.t φ E) (hw : |E - A.guess| < Real.pi / |A.t|) :
    A.energyOf φ = .ok E := by
  obtain ⟨E', e1, ⟨k', rfl⟩, e3⟩ := C80_energy A ht φ h0 h1
  have h := e3 E hE
  obtain ⟨k, rfl⟩ := hE
  rw [e1]
  have hd : |-2 * Real.pi * (φ + k) / A.t - -2 * Real.pi * (φ + k') / A.t| < 2 * Real.pi / |A.t| := by
    calc _ ≤ |-2 * Real.pi * (φ + k) / A.t - A.guess| + |-2 * Real.pi * (φ + k') / A.t - A.guess| := by
          rw [abs_sub_comm (-2 * Real.pi * (φ + k') / A.t)]; exact abs_sub_le _ _ _
      _ < Real.pi / |A.t| + Real.pi / |A.t| := by linarith
      _ = 2 * Real.pi / |A.t| := by ring
  have : -2 * Real.pi * (φ + k) / A.t - -2 * Real.pi * (φ + k') / A.t = 2 * Real.pi / A.t * ((k' - k : ℤ) : ℝ) := by
    push_cast; field_simp; ring
  rw [this, abs_mul, abs_div, abs_of_pos (by positivity : 0 < 2 * Real.pi)] at hd
  have hs : 0 < 2 * Real.pi / |A.t| := div_pos (by positivity) (abs_pos.2 ht)
  have h2 : |((k' - k : ℤ) : ℝ)| < 1 := by
    by_contra hc
    have := mul_le_mul_of_nonneg_left (not_lt.1 hc) hs.le
    linarith
  have h3 : |k' - k| < 1 := by exact_mod_cast h2
  have : k = k' := by rw [Int.abs_lt_one_iff] at h3; omega
  rw [this]

/-- C80: the docstring's condition, "within ±2π/t of the guess", is not enough: an energy further from the guess than `π/|t|` is never returned. -/
theorem C80_window_refuted (A : QpeAlg) (ht : A.t ≠ 0) (φ E : ℝ) (h0 : 0 ≤ φ) (h1 : φ < 1) (hw : Real.pi / |A.t| < |E - A.guess|) :
    ∃ E', A.energyOf φ = .ok E' ∧ E' ≠ E ∧ |E' - A.guess| ≤ Real.pi / |A.t| := by
  obtain ⟨E', e1, e2, e3⟩ := C80_energy A ht φ h0 h1
  suffices h : |E' - A.guess| ≤ Real.pi / |A.t| from ⟨E', e1, fun e => by rw [e] at h; linarith, h⟩
  set g := A.t * A.guess / (-2 * Real.pi) with hg
  have hπ := Real.pi_pos
  refine (e3 _ ⟨round (g - φ), rfl⟩).trans ?_
  have : -2 * Real.pi * (φ + (round (g - φ) : ℤ)) / A.t - A.guess = 2 * Real.pi / A.t * (g - φ - (round (g - φ) : ℤ)) := by
    rw [show A.guess = -2 * Real.pi * g / A.t by rw [hg]; field_simp]; ring
  rw [this, abs_mul, abs_div, abs_of_pos (by positivity : 0 < 2 * Real.pi)]
  have h := abs_sub_round (g - φ)
  calc 2 * Real.pi / |A.t| * |g - φ - (round (g - φ) : ℤ)| ≤ 2 * Real.pi / |A.t| * (1 / 2) := by gcongr
    _ = Real.pi / |A.t| := by ring

/-! ### the run -/

/-- how many of the numbers have digit `i` (from the left, of `a` digits) equal to 1 -/
def digitCount (a i : ℕ) (xs : List ℕ) : ℕ := (xs.filter fun x => x.testBit (a - 1 - i)).length

theorem digitCount_sum (a i : ℕ) (xs : List ℕ) : (xs.map fun x => (x.testBit (a - 1 - i)).toNat).sum = digitCount a i xs := by
  unfold digitCount
  induction xs with
  | nil => rfl
  | cons x xs ih => rw [List.map_cons, List.sum_cons, ih]; cases h : x.testBit (a - 1 - i) <;> simp [h, Nat.add_comm]

theorem majority_ok (A : QpeAlg) (na : ℕ) (xs : List ℕ) (hr : A.nruns ≠ 0) : ∃ m, m < 2 ^ na ∧ A.majority na (xs.map (bitsOf na)) = .ok (bitsOf na m) ∧
    ∀ i < na, m.testBit (na - 1 - i) = decide (A.nruns < 2 * digitCount na i xs) := by
  refine ⟨Nat.ofBits fun j : Fin na => decide (A.nruns < 2 * digitCount na (na - 1 - j) xs), Nat.ofBits_lt_two_pow _, ?_, ?_⟩
  · unfold QpeAlg.majority bitsOf
    refine mapM_ok _ _ _ fun i hi => ?_
    have hi := List.mem_range.1 hi
    rw [List.mapM_map, mapM_ok _ (fun x => (x.testBit (na - 1 - i)).toNat) _ (by
      intro x _
      simp [hi, pure, Except.pure])]
    rw [except_ok_bind, if_neg hr]
    simp only [pure, Except.pure, digitCount_sum]
    show Except.ok _ = Except.ok _
    congr 1
    rw [Nat.testBit_ofBits_lt _ _ (by omega)]
    have hpos : (0 : ℝ) < A.nruns := by positivity
    have : (1 / 2 < ((digitCount na i xs : ℕ) : ℝ) / A.nruns) ↔ A.nruns < 2 * digitCount na i xs := by
      rw [lt_div_iff₀ hpos]
      constructor
      · intro h
        have : (A.nruns : ℝ) < ((2 * digitCount na i xs : ℕ) : ℝ) := by push_cast; linarith
        exact_mod_cast this
      · intro h
        have : (A.nruns : ℝ) < ((2 * digitCount na i xs : ℕ) : ℝ) := by exact_mod_cast h
        push_cast at this; linarith
    simp only [show na - 1 - (na - 1 - i) = i by omega]
    by_cases h : A.nruns < 2 * digitCount na i xs
    · rw [if_pos (this.2 h), decide_eq_true h]; rfl
    · rw [if_neg fun hc => h (this.1 hc), decide_eq_false h]; rfl
  · intro i hi
    rw [Nat.testBit_ofBits_lt _ _ (by omega)]
    simp only [show na - 1 - (na - 1 - i) = i by omega]

/-- the register stays normalized -/
theorem applyCircuit_norm {A : QpeAlg} {a : ℕ} {c : Circuit} {q : Computer} (u2 : (Computer.init (A.nqb + a)).applyCircuit c = .ok q) (u1 : A.uqpe a = .ok c)
    (hA : A.Ready) : inner q.nqubit q.psi q.psi = 1 := by
  obtain ⟨f1, f2⟩ := uqpe_gates hA u1
  obtain ⟨q', e1, e2, e3, e4⟩ := applyCircuit_exact c (Computer.WF.init (A.nqb + a)) f1 f2
  rw [u2] at e1
  cases e1
  rw [e4, e3, inner_circuit f1 fun g hg => (f2 g hg).unitary, init_psi]
  unfold inner
  rw [Finset.sum_eq_single 0]
  · simp
  · intro b _ hb; simp [hb]
  · intro h; exact absurd (Finset.mem_range.2 (Nat.two_pow_pos _)) h

/-- C80: `run`.  Whatever the draws, each readout is the `a` digits of a number `x` that phase estimation reads with non-zero probability;
`_phases` are the `x/2^a`; digit by digit `_final_phase` follows the strict majority of the readouts; each energy is the one nearest to the
guess among those with the phase. -/
theorem C80_run (A : QpeAlg) (hA : A.Ready) (s : Sampler) (mode : List ℝ → ℝ) (hmode : IsMode mode) (a : ℕ) (ha : A.nAncilla = .ok a) (ha1 : 1 ≤ a)
    (hr : A.nruns ≠ 0) (ht : A.t ≠ 0) (φ : ℝ) (hφ : TrotterState A.ham A.trotterNumber A.t A.trial (ee φ • A.trial)) :
    ∃ (r : QpeResult) (xs : List ℕ) (m : ℕ), A.run s mode = .ok r ∧ xs.length = A.nruns ∧ (∀ x ∈ xs, x < 2 ^ a ∧ qpeAmp a φ x ≠ 0) ∧
      r.readouts = xs.map (bitsOf a) ∧ r.phases = xs.map (fun x : ℕ => (x : ℝ) / 2 ^ a) ∧
      m < 2 ^ a ∧ (∀ i < a, m.testBit (a - 1 - i) = decide (A.nruns < 2 * digitCount a i xs)) ∧ r.finalPhase = m / 2 ^ a ∧
      (r.modePhase ∈ r.phases ∧ ∀ v ∈ r.phases, r.phases.count v ≤ r.phases.count r.modePhase) ∧
      NearestAlias A.t A.guess r.finalPhase r.energy ∧ NearestAlias A.t A.guess r.modePhase r.modeEnergy := by
  obtain ⟨c, q, u1, u2, u3, u4, u5⟩ := C80_state A hA a φ hφ
  have hne : ∃ I, q.psi I ≠ 0 := by
    by_contra hc
    have hz : q.psi = fun _ => 0 := funext fun I => by by_contra h; exact hc ⟨I, h⟩
    have hn := applyCircuit_norm u2 u1 hA
    rw [u4, hz] at hn
    simp [inner] at hn
  obtain ⟨z, z1, z2, z3⟩ := readoutsOf_ok A s a ha1 q u3 u4 hne
  choose! J hJ hJ' using z3
  have hz : z = (z.map fun r => blockVal (J r) A.nqb a).map (bitsOf a) := by
    rw [List.map_map]
    conv_lhs => rw [← List.map_id z]
    exact List.map_congr_left fun r hr => hJ' r hr
  set xs := z.map fun r => blockVal (J r) A.nqb a with hxs
  have hxlt : ∀ x ∈ xs, x < 2 ^ a ∧ qpeAmp a φ x ≠ 0 := by
    intro x hx
    obtain ⟨r, hr, rfl⟩ := List.mem_map.1 hx
    refine ⟨blockVal_lt _ _ _, fun h => hJ r hr ?_⟩
    rw [u5, h, zero_mul]
  obtain ⟨m, m1, m2, m3⟩ := majority_ok A a xs hr
  have hph : z.map QpeAlg.phaseOf = xs.map fun x : ℕ => (x : ℝ) / 2 ^ a := by
    rw [hz, List.map_map]
    exact List.map_congr_left fun x hx => phaseOf_bitsOf a x (hxlt x hx).1
  have hp2 : (0 : ℝ) < 2 ^ a := by positivity
  have hfrac : ∀ x : ℕ, x < 2 ^ a → 0 ≤ (x : ℝ) / 2 ^ a ∧ (x : ℝ) / 2 ^ a < 1 := by
    intro x hx
    have : (x : ℝ) < 2 ^ a := by exact_mod_cast hx
    exact ⟨by positivity, (div_lt_one hp2).2 this⟩
  obtain ⟨E, e1, e2⟩ := C80_energy A ht _ (hfrac m m1).1 (hfrac m m1).2
  have hmo := hmode (xs.map fun x : ℕ => (x : ℝ) / 2 ^ a) (by
    intro h
    have := congrArg List.length h
    rw [List.length_map, hxs, List.length_map, z2] at this
    exact hr this)
  obtain ⟨x0, hx0, ex0⟩ := List.mem_map.1 hmo.1
  obtain ⟨E', f1, f2⟩ := C80_energy A ht _ (hfrac x0 (hxlt x0 hx0).1).1 (hfrac x0 (hxlt x0 hx0).1).2
  rw [ex0] at f1 f2
  refine ⟨⟨c, z, xs.map fun x : ℕ => (x : ℝ) / 2 ^ a, m / 2 ^ a, mode (xs.map fun x : ℕ => (x : ℝ) / 2 ^ a), E, E', c.getNumCnots⟩, xs, m, ?_,
    by rw [hxs, List.length_map, z2], hxlt, hz, rfl, m1, m3, rfl, hmo, e2, f2⟩
  unfold QpeAlg.run
  rw [ha, except_ok_bind, u1, except_ok_bind, u2, except_ok_bind]
  have : (if A.fast = true then (pure (q.measureZReadoutsFast s A.nqb (A.nqb + a - 1) A.nruns) : Except Exc (List (List ℕ))) else do
    let zc ← A.zCirc a
    let (z, _) ← q.measureReadouts s zc A.nruns
    pure z) = .ok z := z1
  rw [this, except_ok_bind, hph]
  conv_lhs => rw [hz]
  rw [m2, except_ok_bind]
  simp only [phaseOf_bitsOf a m m1, e1, f1, except_ok_bind]
  rw [← hz]; rfl

/-- the distribution when the phase has `a` binary digits -/
theorem qpeAmp_exact (a m x : ℕ) (hm : m < 2 ^ a) (hx : x < 2 ^ a) : qpeAmp a (m / 2 ^ a) x = if x = m then 1 else 0 := by
  unfold qpeAmp
  have h := ee_diff_sum (2 ^ a) m x hm hx
  have : ∀ y : ℕ, ee (y * ((m : ℝ) / 2 ^ a - x / 2 ^ a)) = ee (y * ((m : ℝ) - x) / ((2 ^ a : ℕ) : ℝ)) := by
    intro y; congr 1; push_cast; ring
  rw [Finset.sum_congr rfl fun y _ => this y, h]
  have hp : (2 : ℂ) ^ a ≠ 0 := pow_ne_zero _ (by norm_num)
  by_cases e : m = x
  · subst e; simp [hp]
  · rw [if_neg e, if_neg fun h => e h.symm, mul_zero]

/-- C80: a phase with `a` binary digits is read exactly, whatever the draws: every readout, the majority and the mode are the phase, and the
energy is the eigenvalue if that is closer to the guess than `π/|t|`. -/
theorem C80_exact (A : QpeAlg) (hA : A.Ready) (s : Sampler) (mode : List ℝ → ℝ) (hmode : IsMode mode) (a : ℕ) (ha : A.nAncilla = .ok a) (ha1 : 1 ≤ a)
    (hr : A.nruns ≠ 0) (ht : A.t ≠ 0) (m : ℕ) (hm : m < 2 ^ a)
    (hφ : TrotterState A.ham A.trotterNumber A.t A.trial (ee (m / 2 ^ a) • A.trial)) :
    ∃ r, A.run s mode = .ok r ∧ r.readouts = List.replicate A.nruns (bitsOf a m) ∧ r.phases = List.replicate A.nruns ((m : ℝ) / 2 ^ a) ∧
      r.finalPhase = m / 2 ^ a ∧ r.modePhase = m / 2 ^ a ∧
      ∀ E : ℝ, Complex.exp (-Complex.I * E * A.t) = ee (m / 2 ^ a) → |E - A.guess| < Real.pi / |A.t| → r.energy = E ∧ r.modeEnergy = E := by
  obtain ⟨r, xs, m', h1, h2, h3, h4, h5, h6, h7, h8, h9, h10, h11⟩ := C80_run A hA s mode hmode a ha ha1 hr ht _ hφ
  have hx : xs = List.replicate A.nruns m := by
    rw [List.eq_replicate_iff]
    refine ⟨h2, fun x hx => ?_⟩
    obtain ⟨a1, a2⟩ := h3 x hx
    rw [qpeAmp_exact a m x hm a1] at a2
    by_contra hc
    rw [if_neg hc] at a2
    exact a2 rfl
  have hm' : m' = m := by
    apply Nat.eq_of_testBit_eq
    intro j
    by_cases hj : j < a
    · have := h7 (a - 1 - j) (by omega)
      rw [show a - 1 - (a - 1 - j) = j by omega] at this
      rw [this, hx]
      have e : a - 1 - (a - 1 - j) = j := by omega
      unfold digitCount
      rw [e]
      cases hb : m.testBit j
      · rw [List.filter_replicate_of_neg (by simp [hb])]
        simp
      · rw [List.filter_replicate_of_pos (by simp [hb])]
        simp; omega
    · rw [Nat.testBit_lt_two_pow (lt_of_lt_of_le h6 (Nat.pow_le_pow_right (by norm_num) (by omega))),
        Nat.testBit_lt_two_pow (lt_of_lt_of_le hm (Nat.pow_le_pow_right (by norm_num) (by omega)))]
  have hph : r.phases = List.replicate A.nruns ((m : ℝ) / 2 ^ a) := by rw [h5, hx, List.map_replicate]
  have hmp : r.modePhase = m / 2 ^ a := by
    have := h9.1
    rw [hph] at this
    exact List.eq_of_mem_replicate this
  rw [hm'] at h8
  refine ⟨r, h1, by rw [h4, hx, List.map_replicate], hph, h8, hmp, fun E hE hw => ?_⟩
  have hal := (isAlias_iff ht).2 hE
  have hp2 : (0 : ℝ) < 2 ^ a := by positivity
  have : (m : ℝ) < 2 ^ a := by exact_mod_cast hm
  have key : ∀ X, NearestAlias A.t A.guess (m / 2 ^ a) X → X = E := by
    intro X hX
    have hXw : |X - A.guess| < Real.pi / |A.t| := lt_of_le_of_lt (hX.2 E hal) hw
    have x1 := C80_energy_window A ht _ X (by positivity) ((div_lt_one hp2).2 this) hX.1 hXw
    have x2 := C80_energy_window A ht _ E (by positivity) ((div_lt_one hp2).2 this) hal hw
    rw [x1] at x2
    exact Except.ok.inj x2
  rw [h8] at h10
  rw [hmp] at h11
  exact ⟨key _ h10, key _ h11⟩

/-- C80: when the terms of the Hamiltonian commute with each other, the Trotterized evolution is exact: an eigenvector of the Hamiltonian with
eigenvalue `E` is an eigenvector of it, with phase `-E t / 2π`. -/
theorem C80_eigenstate (A : QpeAlg) (hA : A.Ready) (hc : ∀ s ∈ A.ham, ∀ u ∈ A.ham, Commute s.2.op u.2.op) (E : ℝ) (hE : A.ham.op A.trial = (E : ℂ) • A.trial) (φ : ℝ)
    (hφ : ee φ = Complex.exp (-Complex.I * E * A.t)) : TrotterState A.ham A.trotterNumber A.t A.trial (ee φ • A.trial) := by
  obtain ⟨W, h1, _⟩ := dynStep_ok hA
  obtain ⟨U, u1, u2⟩ := C77_commuting A.ham A.nqb (fun t ht => (hA.ham t ht).2) hc A.trotterNumber hA.steps A.t A.trial _ (h1 A.trial)
  have : U A.trial = Complex.exp (-Complex.I * A.t * E) • A.trial := by
    refine expOn_eigen (A := (-Complex.I * A.t) • A.ham.op) ?_ (u1 A.trial)
    rw [LinearMap.smul_apply, hE, smul_smul]
  have h2 := h1 A.trial
  rw [u2, this] at h2
  rw [hφ, show -Complex.I * E * A.t = -Complex.I * A.t * E by ring]
  exact h2

/-! ### C81: the probability of success -/

theorem setBlock_blockVal (I n a : ℕ) : setBlock I n a (blockVal I n a) = I := by
  apply Nat.eq_of_testBit_eq
  intro q
  rw [setBlock_testBit]
  split_ifs with h
  · have := blockVal_testBit I a n (q - n) (by omega)
    rw [this]; congr 1; omega
  · rfl

theorem setBlock_lt (J n a x : ℕ) (hJ : J < 2 ^ n) : setBlock J n a x < 2 ^ (n + a) := by
  refine Nat.lt_pow_two_of_testBit _ fun q hq => ?_
  rw [setBlock_testBit, if_neg (by omega)]
  exact Nat.testBit_lt_two_pow (lt_of_lt_of_le hJ (Nat.pow_le_pow_right (by norm_num) (by omega)))

theorem setBlock_zero_lt (I n a : ℕ) (hI : I < 2 ^ (n + a)) : setBlock I n a 0 < 2 ^ n := by
  refine Nat.lt_pow_two_of_testBit _ fun q hq => ?_
  rw [setBlock_testBit]
  split_ifs with h
  · simp
  · exact Nat.testBit_lt_two_pow (lt_of_lt_of_le hI (Nat.pow_le_pow_right (by norm_num) (by omega)))

theorem setBlock_self (J n a : ℕ) (hJ : J < 2 ^ n) : setBlock J n a 0 = J := by
  apply Nat.eq_of_testBit_eq
  intro q
  rw [setBlock_testBit]
  split_ifs with h
  · rw [Nat.zero_testBit, Nat.testBit_lt_two_pow (lt_of_lt_of_le hJ (Nat.pow_le_pow_right (by norm_num) h.1))]
  · rfl

theorem sum_blockVal (n a : ℕ) (f g : ℕ → ℝ) : ∑ I ∈ Finset.range (2 ^ (n + a)), f (blockVal I n a) * g (setBlock I n a 0) =
    (∑ x ∈ Finset.range (2 ^ a), f x) * ∑ J ∈ Finset.range (2 ^ n), g J := by
  rw [Finset.sum_mul_sum, ← Finset.sum_product']
  refine Finset.sum_nbij' (fun I => (blockVal I n a, setBlock I n a 0)) (fun p => setBlock p.2 n a p.1) ?_ ?_ ?_ ?_ ?_
  · intro I hI
    rw [Finset.mem_product, Finset.mem_range, Finset.mem_range]
    exact ⟨blockVal_lt _ _ _, setBlock_zero_lt I n a (Finset.mem_range.1 hI)⟩
  · rintro ⟨x, J⟩ h
    rw [Finset.mem_product, Finset.mem_range, Finset.mem_range] at h
    exact Finset.mem_range.2 (setBlock_lt J n a x h.2)
  · intro I _
    show setBlock (setBlock I n a 0) n a (blockVal I n a) = I
    rw [setBlock_setBlock, setBlock_blockVal]
  · rintro ⟨x, J⟩ h
    rw [Finset.mem_product, Finset.mem_range, Finset.mem_range] at h
    show (blockVal (setBlock J n a x) n a, setBlock (setBlock J n a x) n a 0) = (x, J)
    rw [blockVal_setBlock J a n x h.1, setBlock_setBlock, setBlock_self J n a h.2]
  · intro I _; rfl

theorem inner_self_sum (n : ℕ) (ψ : St) : inner n ψ ψ = ((∑ I ∈ Finset.range (2 ^ n), ‖ψ I‖ ^ 2 : ℝ) : ℂ) := by
  unfold inner
  rw [Complex.ofReal_sum]
  refine Finset.sum_congr rfl fun I _ => ?_
  rw [mul_comm, Complex.mul_conj, Complex.normSq_eq_norm_sq]

/-- `x/2^a` is closer to `φ` than `2^{-b}`, as points of the circle `ℝ/ℤ` -/
def CloseTo (a b : ℕ) (φ : ℝ) (x : ℕ) : Prop := ∃ k : ℤ, |φ - x / 2 ^ a - k| < 1 / 2 ^ b

open Classical in
/-- C81: with the number of ancillas `run` chooses from `success_prob` and `num_precise_bits`, the probability that a single readout agrees
with the phase to within `2^{-num_precise_bits}` (on the circle) is at least `success_prob`. -/
theorem C81_success (A : QpeAlg) (hA : A.Ready) (hs : A.successProb < 1) (φ : ℝ)
    (hφ : TrotterState A.ham A.trotterNumber A.t A.trial (ee φ • A.trial)) :
    ∃ a c q, A.nAncilla = .ok a ∧ A.preciseBits < a ∧ A.uqpe a = .ok c ∧ (Computer.init (A.nqb + a)).applyCircuit c = .ok q ∧
      ∑ I ∈ Finset.range (2 ^ (A.nqb + a)), ‖q.psi I‖ ^ 2 = 1 ∧
      (∀ x < 2 ^ a, ∑ I ∈ Finset.range (2 ^ (A.nqb + a)) with blockVal I A.nqb a = x, ‖q.psi I‖ ^ 2 = ‖qpeAmp a φ x‖ ^ 2) ∧
      A.successProb ≤ ∑ I ∈ Finset.range (2 ^ (A.nqb + a)) with CloseTo a A.preciseBits φ (blockVal I A.nqb a), ‖q.psi I‖ ^ 2 := by
  obtain ⟨p, p1, p2, p3⟩ := ancilla_enough (1 - A.successProb) (by linarith)
  obtain ⟨c, q, u1, u2, u3, u4, u5⟩ := C80_state A hA (A.preciseBits + p) φ hφ
  have hn : A.nAncilla = .ok (A.preciseBits + p) := by
    unfold QpeAlg.nAncilla
    have h0 : 0 < 1 / (1 - A.successProb) := div_pos one_pos (by linarith)
    rw [if_neg (by linarith), if_neg (by linarith), p2]
    rfl
  set a := A.preciseBits + p with ha
  have hone : ∑ I ∈ Finset.range (2 ^ (A.nqb + a)), ‖q.psi I‖ ^ 2 = 1 := by
    have := applyCircuit_norm u2 u1 hA
    rw [u4, inner_self_sum] at this
    exact_mod_cast this
  have htr : ∑ J ∈ Finset.range (2 ^ A.nqb), ‖A.trial J‖ ^ 2 = 1 := by
    have := trial_norm hA
    rw [inner_self_sum] at this
    exact_mod_cast this
  have hfil : ∀ (P : ℕ → Prop) [DecidablePred P], ∑ I ∈ Finset.range (2 ^ (A.nqb + a)) with P (blockVal I A.nqb a), ‖q.psi I‖ ^ 2 =
      ∑ x ∈ Finset.range (2 ^ a) with P x, ‖qpeAmp a φ x‖ ^ 2 := by
    intro P _
    rw [Finset.sum_filter, Finset.sum_filter]
    have := sum_blockVal A.nqb a (fun x => if P x then ‖qpeAmp a φ x‖ ^ 2 else 0) (fun J => ‖A.trial J‖ ^ 2)
    rw [htr, mul_one] at this
    rw [← this]
    refine Finset.sum_congr rfl fun I _ => ?_
    rw [u5, norm_mul, mul_pow]
    split_ifs <;> simp
  refine ⟨a, c, q, hn, by omega, u1, u2, hone, ?_, ?_⟩
  · intro x hx
    rw [hfil (fun y => y = x), Finset.sum_filter, Finset.sum_ite_eq' , if_pos (Finset.mem_range.2 hx)]
  · have hbad := qpe_tail a p p1 φ ((Finset.range (2 ^ a)).filter fun x => ¬ CloseTo a A.preciseBits φ x) (by
      intro x hx
      obtain ⟨h1, h2⟩ := Finset.mem_filter.1 hx
      refine ⟨Finset.mem_range.1 h1, fun k => ?_⟩
      by_contra hc
      refine h2 ⟨k, ?_⟩
      have hN : (0 : ℝ) < 2 ^ a := by positivity
      have e : 2 ^ a * φ - x - 2 ^ a * k = 2 ^ a * (φ - x / 2 ^ a - k) := by field_simp
      rw [e, abs_mul, abs_of_pos hN, not_le] at hc
      have e2 : (2 : ℝ) ^ a = 2 ^ A.preciseBits * 2 ^ p := by rw [ha, pow_add]
      rw [lt_div_iff₀ (by positivity)]
      have hp0 : (0 : ℝ) < 2 ^ p := by positivity
      rw [e2] at hc
      have : 2 ^ p * (|φ - x / (2 ^ A.preciseBits * 2 ^ p) - k| * 2 ^ A.preciseBits) < 2 ^ p * 1 := by linarith
      rw [e2]
      exact lt_of_mul_lt_mul_left this hp0.le)
    have htot := Finset.sum_filter_add_sum_filter_not (Finset.range (2 ^ (A.nqb + a))) (fun I => CloseTo a A.preciseBits φ (blockVal I A.nqb a)) (fun I => ‖q.psi I‖ ^ 2)
    rw [hone] at htot
    have h2 := hfil fun x => ¬ CloseTo a A.preciseBits φ x
    rw [h2] at htot
    linarith

/-! ### examples -/

/-- a one-qubit Hamiltonian `Z/1 + 1/2`, trial state `|1⟩` (eigenvalue -1/2) -/
noncomputable def exampleQpe : QpeAlg :=
  { nqb := 1, uprep := [gX 0], ham := [(1, [gZ 0]), (1 / 2, [])], trotterNumber := 2, guess := -2 / 5, t := Real.pi, nruns := 3, preciseBits := 1 }

theorem exampleQpe_ready : exampleQpe.Ready := by
  refine ⟨⟨?_, ?_⟩, ?_, by decide⟩
  · intro g hg
    rw [show g = gX 0 by simpa [exampleQpe] using hg]
    exact ⟨Nat.zero_lt_one, Nat.zero_lt_one⟩
  · intro g hg
    rw [show g = gX 0 by simpa [exampleQpe] using hg]
    exact (pauliGate_X 0).exact
  · intro t ht
    simp only [exampleQpe, List.mem_cons, List.not_mem_nil, or_false] at ht
    rcases ht with rfl | rfl
    · refine ⟨rfl, ⟨?_, by simp, ?_⟩⟩
      · intro g hg
        rw [List.mem_singleton.1 hg]; exact pauliGate_Z 0
      · intro g hg
        rw [List.mem_singleton.1 hg]; exact ⟨Nat.zero_lt_one, Nat.zero_lt_one⟩
    · exact ⟨by simp, ⟨by simp, by simp, by simp [Circuit.Fits]⟩⟩

theorem exampleQpe_eigen : exampleQpe.ham.op exampleQpe.trial = ((-1 / 2 : ℝ) : ℂ) • exampleQpe.trial := by
  have ht : exampleQpe.trial = fun I => if I = 1 then 1 else 0 := by
    funext I
    show Circuit.op [gX 0] _ I = _
    have : Circuit.op [gX 0] = (gX 0).op := by simp [Circuit.op]
    rw [this, op_gX, opX_apply]
    have : flipBit I 0 = 0 ↔ I = 1 := by
      constructor
      · intro h
        have := congrArg (fun J => flipBit J 0) h
        simp only [flipBit_flipBit] at this
        rw [this]; rfl
      · rintro rfl; rfl
    simp only [this]
  have hop : exampleQpe.ham.op = opZ 0 + (1 / 2 : ℂ) • (1 : Op) := by
    simp [exampleQpe, QubitOperator.op, op_gZ]
  rw [hop, ht]
  funext I
  rw [LinearMap.add_apply, Pi.add_apply, opZ_apply, LinearMap.smul_apply, Pi.smul_apply, Pi.smul_apply, Module.End.one_apply, smul_eq_mul, smul_eq_mul]
  by_cases h : I = 1
  · subst h; norm_num
  · simp [h]

theorem ancilla_half {A : QpeAlg} (h : A.successProb = 1 / 2) : A.nAncilla = .ok (A.preciseBits + 2) := by
  unfold QpeAlg.nAncilla
  rw [h]
  norm_num [intLog2]
  have : Real.logb 2 4 = 2 := by
    rw [show (4 : ℝ) = 2 ^ (2 : ℕ) by norm_num, Real.logb_pow, Real.logb_self_eq_one (by norm_num)]; norm_num
  rw [this]
  norm_num
  omega

/-- C80, C81: the example meets the hypotheses; its energy is found for every sampler -/
theorem C80_example (s : Sampler) (mode : List ℝ → ℝ) (hmode : IsMode mode) : exampleQpe.Ready ∧ exampleQpe.nAncilla = .ok 3 ∧
    TrotterState exampleQpe.ham exampleQpe.trotterNumber exampleQpe.t exampleQpe.trial (ee (((2 : ℕ) : ℝ) / 2 ^ 3) • exampleQpe.trial) ∧
    ∃ r, exampleQpe.run s mode = .ok r ∧ r.readouts = [[0, 1, 0], [0, 1, 0], [0, 1, 0]] ∧ r.energy = -1 / 2 := by
  have h1 := exampleQpe_ready
  have h2 : exampleQpe.nAncilla = .ok 3 := ancilla_half rfl
  have hee : ee (((2 : ℕ) : ℝ) / 2 ^ 3) = Complex.exp (-Complex.I * ((-1 / 2 : ℝ) : ℂ) * exampleQpe.t) := by
    unfold ee exampleQpe
    congr 1
    push_cast; ring
  have h3 := C80_eigenstate exampleQpe h1 (by
    intro x hx y hy
    simp only [exampleQpe, List.mem_cons, List.not_mem_nil, or_false] at hx hy
    rcases hx with rfl | rfl <;> rcases hy with rfl | rfl
    · exact Commute.refl _
    · exact Commute.one_right _
    · exact Commute.one_left _
    · exact Commute.refl _) (-1 / 2) exampleQpe_eigen _ hee
  obtain ⟨r, r1, r2, _, _, _, r6⟩ := C80_exact exampleQpe h1 s mode hmode 3 h2 (by norm_num) (by decide) Real.pi_ne_zero 2 (by norm_num) h3
  refine ⟨h1, h2, h3, r, r1, by rw [r2]; rfl, (r6 (-1 / 2) hee.symm ?_).1⟩
  show |(-1 / 2 : ℝ) - -2 / 5| < Real.pi / |Real.pi|
  rw [abs_of_pos Real.pi_pos, div_self Real.pi_ne_zero]
  rw [abs_lt]; constructor <;> norm_num

theorem exists_mode : ∃ mode, IsMode mode := by
  classical
  have : ∀ l : List ℝ, ∃ v, l ≠ [] → v ∈ l ∧ ∀ x ∈ l, l.count x ≤ l.count v := by
    intro l
    by_cases h : l = []
    · exact ⟨0, fun hc => absurd h hc⟩
    · obtain ⟨v, hv, hm⟩ := l.toFinset.exists_max_image (fun x => l.count x) (by
        obtain ⟨x, l', rfl⟩ := List.exists_cons_of_ne_nil h
        exact ⟨x, by simp⟩)
      exact ⟨v, fun _ => ⟨List.mem_toFinset.1 hv, fun x hx => hm x (List.mem_toFinset.2 hx)⟩⟩
  choose f hf using this
  exact ⟨f, fun l hl => hf l hl⟩

/-- C80: the majority is taken digit by digit, so `_final_phase` need not be a phase that was read: here the three readouts are 110, 101 and
011, and the final phase is 111. -/
theorem C80_majority_refuted (A : QpeAlg) (hr : A.nruns = 3) : A.majority 3 ([6, 5, 3].map (bitsOf 3)) = .ok (bitsOf 3 7) ∧ bitsOf 3 7 ∉ [6, 5, 3].map (bitsOf 3) := by
  obtain ⟨m, m1, m2, m3⟩ := majority_ok A 3 [6, 5, 3] (by omega)
  have h0 := m3 0 (by norm_num)
  have h1 := m3 1 (by norm_num)
  have h2 := m3 2 (by norm_num)
  rw [hr] at h0 h1 h2
  have c0 : digitCount 3 0 [6, 5, 3] = 2 := by decide
  have c1 : digitCount 3 1 [6, 5, 3] = 2 := by decide
  have c2 : digitCount 3 2 [6, 5, 3] = 2 := by decide
  rw [c0] at h0
  rw [c1] at h1
  rw [c2] at h2
  norm_num at h0 h1 h2
  have : m = 7 := by
    have : m < 8 := m1
    interval_cases m <;> revert h0 h1 h2 <;> decide
  rw [this] at m2
  exact ⟨m2, by decide⟩

theorem qpeAmp_ne_zero (a : ℕ) (φ : ℝ) (x : ℕ) (h : ∀ k : ℤ, 2 ^ a * φ ≠ k) : qpeAmp a φ x ≠ 0 := by
  have hone : ∀ y : ℝ, ee y = 1 → ∃ k : ℤ, y = k := by
    intro y hy
    unfold ee at hy
    rw [Complex.exp_eq_one_iff] at hy
    obtain ⟨n, hn⟩ := hy
    refine ⟨n, ?_⟩
    have h3 : ((y : ℝ) : ℂ) = (n : ℂ) := by
      apply mul_left_cancel₀ Complex.two_pi_I_ne_zero; rw [hn]; ring
    exact_mod_cast h3
  have hN : (2 : ℝ) ^ a ≠ 0 := by positivity
  have h1 : ee (φ - x / 2 ^ a) ≠ 1 := by
    intro hc
    obtain ⟨k, hk⟩ := hone _ hc
    refine h (2 ^ a * k + x) ?_
    push_cast; rw [← hk]; field_simp; ring
  unfold qpeAmp
  rw [Finset.sum_congr rfl fun y _ => (ee_pow (φ - x / 2 ^ a) y).symm, geom_sum_eq h1]
  refine mul_ne_zero (div_ne_zero one_ne_zero (pow_ne_zero _ (by norm_num))) (div_ne_zero ?_ (sub_ne_zero.2 h1))
  rw [ee_pow, sub_ne_zero]
  intro hc
  obtain ⟨k, hk⟩ := hone _ hc
  refine h (k + x) ?_
  push_cast at hk ⊢; rw [← hk]; field_simp; ring

/-- a device whose draws are the given indices, as long as their weight is positive -/
theorem exists_sampler (J : ℕ → ℕ) : ∃ s : Sampler, ∀ w k, 0 < w.getD (J k) 0 → s.draw w k = J k := by
  classical
  have hex : ∀ w : List ℝ, ∃ i, (∃ x ∈ w, 0 < x) → 0 < w.getD i 0 := by
    intro w
    by_cases h : ∃ x ∈ w, 0 < x
    · obtain ⟨x, hx, h0⟩ := h
      obtain ⟨i, hi, rfl⟩ := List.getElem_of_mem hx
      exact ⟨i, fun _ => by rw [List.getD_eq_getElem _ _ hi]; exact h0⟩
    · exact ⟨0, fun hc => absurd hc h⟩
  choose f hf using hex
  refine ⟨⟨fun w k => if 0 < w.getD (J k) 0 then J k else f w, fun w _ hw k => ?_⟩, fun w k h => if_pos h⟩
  split_ifs with h
  · exact h
  · exact hf w hw

/-- C80: such a run exists: `_final_phase`, and with it the reported energy, can come from a phase that no run produced. -/
theorem C80_majority_run (mode : List ℝ → ℝ) (hmode : IsMode mode) : ∃ (A : QpeAlg) (s : Sampler) (r : QpeResult), A.Ready ∧
    A.run s mode = .ok r ∧ r.phases = [6 / 8, 5 / 8, 3 / 8] ∧ r.finalPhase = 7 / 8 := by
  let A : QpeAlg := { exampleQpe with t := 1 }
  have hA : A.Ready := ⟨exampleQpe_ready.prep, exampleQpe_ready.ham, exampleQpe_ready.steps⟩
  have hφ : TrotterState A.ham A.trotterNumber A.t A.trial (ee (1 / (4 * Real.pi)) • A.trial) := by
    refine C80_eigenstate A hA ?_ (-1 / 2) exampleQpe_eigen _ ?_
    · intro x hx y hy
      simp only [A, exampleQpe, List.mem_cons, List.not_mem_nil, or_false] at hx hy
      rcases hx with rfl | rfl <;> rcases hy with rfl | rfl
      · exact Commute.refl _
      · exact Commute.one_right _
      · exact Commute.one_left _
      · exact Commute.refl _
    · unfold ee
      congr 1
      have := Complex.ofReal_ne_zero.2 Real.pi_ne_zero
      show _ = -Complex.I * ((-1 / 2 : ℝ) : ℂ) * ((1 : ℝ) : ℂ)
      push_cast; field_simp; norm_num
  have ha : A.nAncilla = .ok 3 := ancilla_half rfl
  have hne : ∀ x, qpeAmp 3 (1 / (4 * Real.pi)) x ≠ 0 := by
    intro x
    refine qpeAmp_ne_zero 3 _ x fun k hk => ?_
    have h1 : (0 : ℝ) < 2 ^ 3 * (1 / (4 * Real.pi)) := by have := Real.pi_pos; positivity
    have h2 : (2 : ℝ) ^ 3 * (1 / (4 * Real.pi)) < 1 := by
      have := Real.pi_gt_three
      rw [mul_one_div, div_lt_one (by positivity)]; linarith
    rw [hk] at h1 h2
    have : (0 : ℤ) < k := by exact_mod_cast h1
    have : k < (1 : ℤ) := by exact_mod_cast h2
    omega
  obtain ⟨c, q, u1, u2, u3, u4, u5⟩ := C80_state A hA 3 _ hφ
  obtain ⟨s, hs⟩ := exists_sampler fun k => setBlock 1 1 3 (match k with | 0 => 6 | 1 => 5 | _ => 3)
  have ht1 : A.trial 1 ≠ 0 := by
    show Circuit.op [gX 0] _ 1 ≠ 0
    have : Circuit.op [gX 0] = (gX 0).op := by simp [Circuit.op]
    rw [this, op_gX, opX_apply]
    have : flipBit 1 0 = 0 := rfl
    simp [this]
  have hdraw : ∀ k, s.draw q.probs k = setBlock 1 1 3 (match k with | 0 => 6 | 1 => 5 | _ => 3) := by
    intro k
    refine hs _ k ?_
    rw [probs_eq]
    have : q.psi (setBlock 1 1 3 (match k with | 0 => 6 | 1 => 5 | _ => 3)) ≠ 0 := by
      rw [u5]
      refine mul_ne_zero (hne _) ?_
      show A.trial (setBlock (setBlock 1 1 3 _) 1 3 0) ≠ 0
      rw [setBlock_setBlock, setBlock_self 1 1 3 (by norm_num)]
      exact ht1
    positivity
  have hz : q.measureZReadoutsFast s A.nqb (A.nqb + 3 - 1) A.nruns = [6, 5, 3].map (bitsOf 3) := by
    unfold Computer.measureZReadoutsFast
    simp only [hdraw]
    decide
  obtain ⟨hm, _⟩ := C80_majority_refuted A rfl
  obtain ⟨E, e1, _⟩ := C80_energy A one_ne_zero (((7 : ℕ) : ℝ) / 2 ^ 3) (by positivity) (by norm_num)
  have hp : ([6, 5, 3].map (bitsOf 3)).map QpeAlg.phaseOf = [6 / 8, 5 / 8, 3 / 8] := by
    simp only [List.map_cons, List.map_nil, phaseOf_bitsOf 3 6 (by norm_num), phaseOf_bitsOf 3 5 (by norm_num), phaseOf_bitsOf 3 3 (by norm_num)]
    norm_num
  have hmo := (hmode [6 / 8, 5 / 8, 3 / 8] (by simp)).1
  obtain ⟨E', f1, _⟩ := C80_energy A one_ne_zero (mode [6 / 8, 5 / 8, 3 / 8]) (by
    simp only [List.mem_cons, List.not_mem_nil, or_false] at hmo
    rcases hmo with h | h | h <;> rw [h] <;> norm_num) (by
    simp only [List.mem_cons, List.not_mem_nil, or_false] at hmo
    rcases hmo with h | h | h <;> rw [h] <;> norm_num)
  refine ⟨A, s, ⟨c, [6, 5, 3].map (bitsOf 3), [6 / 8, 5 / 8, 3 / 8], ((7 : ℕ) : ℝ) / 2 ^ 3, mode [6 / 8, 5 / 8, 3 / 8], E, E', c.getNumCnots⟩, hA, ?_, rfl, by norm_num⟩
  unfold QpeAlg.run
  rw [ha, except_ok_bind, u1, except_ok_bind, u2, except_ok_bind]
  rw [if_pos (show A.fast = true from rfl), hz]
  simp only [pure, Except.pure, except_ok_bind, hm, phaseOf_bitsOf 3 7 (by norm_num), hp, e1, f1]

end QF
