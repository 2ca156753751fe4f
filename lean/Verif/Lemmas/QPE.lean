import Verif.Model.QPE
import Verif.Props.Hadamard
import Verif.Props.QFT

/-!
The circuit of quantum phase estimation.
-/
namespace QF

/-- an operator that leaves a set of qubits alone only reads amplitudes with the same values of these qubits -/
theorem off_congr {U : Op} : ∀ (l : List ℕ), (∀ a ∈ l, OffQubit a U) → ∀ (φ φ' : St) (I : ℕ),
    (∀ J, (∀ a ∈ l, J.testBit a = I.testBit a) → φ J = φ' J) → U φ I = U φ' I := by
  intro l
  induction l with
  | nil => intro _ φ φ' I h; rw [show φ = φ' from funext fun J => h J (by simp)]
  | cons a l ih =>
    intro hU φ φ' I h
    rw [off_proj (hU a (by simp)) rfl φ, off_proj (hU a (by simp)) rfl φ']
    refine ih (fun b hb => hU b (by simp [hb])) _ _ I fun J hJ => ?_
    rw [proj_apply, proj_apply]
    split_ifs with e
    · refine h J fun b hb => ?_
      rcases List.mem_cons.1 hb with rfl | hb
      · exact e
      · exact hJ b hb
    · rfl

/-- the gates of `get_Uhad` -/
noncomputable def hads (n a : ℕ) : Circuit := (List.range' n a).map gH

theorem uhad_ok (A : QpeAlg) (na : ℕ) : A.uhad na = .ok (hads A.nqb na) := by
  unfold QpeAlg.uhad
  rw [foldlM_addGate _ gH _ (fun j _ => ?_)]
  · rfl
  · unfold pyGate2
    rw [if_neg (by decide), if_pos ⟨rfl, by decide⟩, make_H]

theorem leVal_snoc (I j d : ℕ) : leVal I j (d + 1) = leVal I j d + (I.testBit (j + d)).toNat * 2 ^ d := by
  unfold leVal; rw [Finset.sum_range_succ]

theorem hads_snoc (n a : ℕ) : hads n (a + 1) = hads n a ++ [gH (n + a)] := by
  unfold hads; rw [List.range'_concat]; simp

theorem hads_apply (n : ℕ) : ∀ (a : ℕ) (Φ : St), (∀ J i, i < a → J.testBit (n + i) = true → Φ J = 0) → ∀ I,
    (hads n a).op Φ I = ((1 / Real.sqrt (2 ^ a) : ℝ) : ℂ) * Φ (setBlock I n a 0) := by
  intro a
  induction a with
  | zero => intro Φ _ I; simp [hads, setBlock]
  | succ a ih =>
    intro Φ hΦ I
    rw [hads_snoc, Circuit.op_append, Module.End.mul_apply]
    show (gH (n + a)).op _ I = _
    rw [op_gH, LinearMap.smul_apply, Pi.smul_apply, LinearMap.add_apply, Pi.add_apply, opX_apply, opZ_apply, smul_eq_mul]
    have hΦ' : ∀ J i, i < a → J.testBit (n + i) = true → Φ J = 0 := fun J i hi => hΦ J i (by omega)
    rw [ih Φ hΦ', ih Φ hΦ', sqrt_two_pow]
    have key : ∀ J, J.testBit (n + a) = false → (∀ q, q ≠ n + a → J.testBit q = I.testBit q) → setBlock J n a 0 = setBlock I n (a + 1) 0 := by
      intro J h0 h1
      apply Nat.eq_of_testBit_eq
      intro q
      rw [setBlock_testBit, setBlock_testBit]
      by_cases e : q = n + a
      · subst e; rw [if_neg (by omega), if_pos (by omega), h0, Nat.zero_testBit]
      · by_cases e' : n ≤ q ∧ q < n + a
        · rw [if_pos e', if_pos (by omega)]; simp
        · rw [if_neg e', if_neg (by omega), h1 q e]
    have zero : ∀ J, J.testBit (n + a) = true → Φ (setBlock J n a 0) = 0 := by
      intro J h
      refine hΦ _ a (by omega) ?_
      rw [setBlock_testBit, if_neg (by omega), h]
    have hc : ∀ x : ℂ, ((1 / Real.sqrt 2 : ℝ) : ℂ) * (((1 / Real.sqrt (2 ^ a) : ℝ) : ℂ) * x) =
        ((1 / (Real.sqrt (2 ^ a) * Real.sqrt 2) : ℝ) : ℂ) * x := by
      intro x; push_cast; field_simp
    cases h : I.testBit (n + a)
    · rw [zero (flipBit I (n + a)) (by rw [testBit_flipBit, if_pos rfl, h]; rfl), key I h fun _ _ => rfl]
      simp only [Bool.false_eq_true, if_false, mul_zero, zero_add, one_mul]
      rw [← hc]
    · rw [zero I h, key (flipBit I (n + a)) (by rw [testBit_flipBit, if_pos rfl, h]; rfl) (fun q hq => by rw [testBit_flipBit, if_neg hq])]
      simp only [if_true, mul_zero, add_zero]
      rw [← hc]

/-- the phase gate as a controlled number -/
theorem op_phase {a : ℕ} {θ : ℝ} {g : Gate} (h : makeGate "R" a a θ = .ok g) : g.op = ctrlOp a true (Complex.exp (Complex.I * θ) • (1 : Op)) := by
  have := (makeGate_spec h).2.2.2
  simp [stdGate] at this
  rw [← this]
  refine Op.ext' fun ψ I => ?_
  rw [ctrlOp_apply]
  simp only [phaseOp, LinearMap.add_apply, LinearMap.smul_apply, Pi.add_apply, Pi.smul_apply, proj_apply, smul_eq_mul, Module.End.one_apply]
  cases I.testBit a <;> simp

theorem exact_R {t : ℕ} {θ : ℝ} {g : Gate} (h : makeGate "R" t t θ = .ok g) : ExactGate g := by
  have hm := made_of_makeGate h
  refine ⟨api_unitary (.make h), made_fast hm (by decide), ?_⟩
  generalize hs : "R" = s at hm
  cases hm <;> first | (exfalso; revert hs; decide) | skip
  have key : ∀ x : ℂ, x.re = 0 → Res (Complex.exp x) := fun x hx _ => by rw [Complex.norm_exp, hx, Real.exp_zero]; norm_num
  have k1 : Res 1 := fun _ => by norm_num
  exact .mat1 k1 .zero .zero (key _ (by simp))

/-! ### the controlled evolutions -/

/-- the Hamiltonian and preparation circuit of a phase estimation: real coefficients and Pauli strings on `nqb` qubits -/
structure QpeAlg.Ready (A : QpeAlg) : Prop where
  prep : A.uprep.Fits A.nqb ∧ ∀ g ∈ A.uprep, ExactGate g
  ham : ∀ t ∈ A.ham, t.1.im = 0 ∧ t.2.PauliString A.nqb
  steps : 1 ≤ A.trotterNumber

theorem tempOp_eq (A : QpeAlg) : A.tempOp = (A.ham.filter fun s => s.2.length ≠ 0).map fun s => (-Complex.I * s.1 * A.t, s.2) := by
  unfold QpeAlg.tempOp
  have : ∀ (l : QubitOperator) (T : QubitOperator),
      l.foldl (fun T s => if s.2.length = 0 then T else QubitOperator.addTerm T (-Complex.I * s.1 * A.t) s.2) T =
      T ++ (l.filter fun s => s.2.length ≠ 0).map fun s => (-Complex.I * s.1 * A.t, s.2) := by
    intro l
    induction l with
    | nil => simp
    | cons s l ih =>
      intro T
      rw [List.foldl_cons, ih]
      by_cases h : s.2.length = 0
      · rw [if_pos h, List.filter_cons_of_neg (by simpa using h)]
      · rw [if_neg h, List.filter_cons_of_pos (by simpa using h)]; simp [QubitOperator.addTerm]
  rw [this]; rfl

theorem scalarTerms_eq (A : QpeAlg) : A.scalarTerms = (A.ham.filter fun s => s.2.length = 0).map fun s => s.1 * (A.t : ℂ) := by
  unfold QpeAlg.scalarTerms
  have : ∀ (l : QubitOperator) (T : List ℂ),
      l.foldl (fun T s => if s.2.length = 0 then T ++ [s.1 * (A.t : ℂ)] else T) T =
      T ++ (l.filter fun s => s.2.length = 0).map fun s => s.1 * (A.t : ℂ) := by
    intro l
    induction l with
    | nil => simp
    | cons s l ih =>
      intro T
      rw [List.foldl_cons, ih]
      by_cases h : s.2.length = 0
      · rw [if_pos h, List.filter_cons_of_pos (by simpa using h)]; simp
      · rw [if_neg h, List.filter_cons_of_neg (by simpa using h)]
  rw [this]; rfl

/-- the Trotter product of all terms is that of the terms that are not multiples of the identity, times a phase -/
theorem split_scalars (τ : ℝ) (N : ℤ) (H : QubitOperator) (Us : List Op)
    (h : List.Forall₂ (fun t U => IsExp ((-Complex.I * τ * t.1 / (N : ℂ)) • t.2.op) U) H Us) (Vs : List Op)
    (h' : List.Forall₂ (fun t V => IsExp ((1 * t.1 / (N : ℂ)) • t.2.op) V) ((H.filter fun s => s.2.length ≠ 0).map fun s => (-Complex.I * s.1 * τ, s.2)) Vs) :
    applyInOrder Us = Complex.exp (-Complex.I * ((H.filter fun s => s.2.length = 0).map fun s => s.1 * (τ : ℂ)).sum / N) • applyInOrder Vs := by
  induction h generalizing Vs with
  | nil => cases h'; simp
  | @cons t U H Us h1 h2 ih =>
    by_cases e : t.2.length = 0
    · have e0 : t.2 = [] := List.length_eq_zero_iff.1 e
      rw [List.filter_cons_of_neg (by simpa using e)] at h'
      rw [List.filter_cons_of_pos (by simpa using e), List.map_cons, List.sum_cons]
      rw [e0] at h1
      have hU : U = Complex.exp (-Complex.I * τ * t.1 / N) • (1 : Op) := h1.unique (isExp_scalar _)
      show applyInOrder Us * U = _
      rw [hU, ih Vs h', smul_mul_smul_comm, mul_one, ← Complex.exp_add]
      congr 2
      ring
    · rw [List.filter_cons_of_pos (by simpa using e)] at h'
      rw [List.filter_cons_of_neg (by simpa using e)]
      obtain _ | ⟨h1', h2'⟩ := h'
      rename_i V Vs
      show applyInOrder Us * U = _
      have : U = V := h1.unique (by convert! h1' using 3; ring)
      rw [ih Vs h2', this]
      show _ = Complex.exp _ • (applyInOrder Vs * V)
      rw [smul_mul_assoc]

theorem forall₂_exp_unique {f : ℂ × Circuit → ℂ} {T : QubitOperator} {Us Vs : List Op} (h : List.Forall₂ (fun t V => IsExp (f t • t.2.op) V) T Us)
    (h' : List.Forall₂ (fun t V => IsExp (f t • t.2.op) V) T Vs) : Us = Vs := by
  induction h generalizing Vs with
  | nil => cases h'; rfl
  | cons h _ ih => cases h' with
    | cons h' h2 => rw [h.unique h', ih h2]

/-- one ancilla -/
theorem dynStep_ok {A : QpeAlg} (hA : A.Ready) : ∃ W : Op, (∀ Φ, TrotterState A.ham A.trotterNumber A.t Φ (W Φ)) ∧ (∀ q, A.nqb ≤ q → OffQubit q W) ∧
    ∀ (U : Circuit) (n : ℕ), ∃ C, A.dynStep U n = .ok (U ++ C) ∧ C.op = ctrlOp (A.nqb + n) true (W ^ (2 ^ n)) ∧ C.Fits (A.nqb + n + 1) ∧ ∀ g ∈ C, ExactGate g := by
  have hmem : ∀ q, A.nqb ≤ q → ∀ t ∈ A.ham, q ∉ t.2.map Gate.target := by
    intro q hq t ht hc
    obtain ⟨g, hg, e⟩ := List.mem_map.1 hc
    have := ((hA.ham t ht).2.fits g hg).1
    omega
  have hterm : ∀ x ∈ A.tempOp, ∃ t ∈ A.ham, t.2 = x.2 ∧ t.2 ≠ [] ∧ x.1 = -Complex.I * t.1 * A.t := by
    intro x hx
    rw [tempOp_eq] at hx
    obtain ⟨t, ht, rfl⟩ := List.mem_map.1 hx
    obtain ⟨h1, h2⟩ := List.mem_filter.1 ht
    exact ⟨t, h1, rfl, fun e => by simp [e] at h2, rfl⟩
  have run := fun q (hq : A.nqb ≤ q) => ctrlTrotter_ok A.tempOp 1 A.trotterNumber q (by
      intro x hx
      obtain ⟨t, ht, e, _, _⟩ := hterm x hx
      rw [← e]
      exact ⟨trotterTerm_of (hA.ham t ht).2, hmem q hq t ht⟩) (by
      intro x hx
      obtain ⟨t, ht, _, _, e⟩ := hterm x hx
      have := (hA.ham t ht).1
      rw [e]; simp [this])
  obtain ⟨_, _, Us, _, hUs, _, _⟩ := trotterize_fits A.nqb A.ham (-Complex.I * A.t) A.trotterNumber 1 le_rfl (by have := hA.steps; omega)
    (fun t ht => trotterTerm_of (hA.ham t ht).2) (fun t ht g hg => ((hA.ham t ht).2.fits g hg).1) (fun t ht => by
      have := (hA.ham t ht).1
      simp [this])
  obtain ⟨Vs, hVs⟩ : ∃ Vs, List.Forall₂ (fun t V => IsExp ((1 * t.1 / (A.trotterNumber : ℂ)) • t.2.op) V) A.tempOp Vs := by
    obtain ⟨_, _, _, Vs, _, hVs, _⟩ := run A.nqb le_rfl
    exact ⟨Vs, hVs⟩
  set σ := A.scalarTerms.sum with hσ
  have hN : (A.trotterNumber : ℂ) ≠ 0 := by
    have := hA.steps
    norm_cast; omega
  have e1 := split_scalars A.t A.trotterNumber A.ham Us hUs Vs (by rw [tempOp_eq] at hVs; exact hVs)
  rw [← scalarTerms_eq, ← hσ] at e1
  have e2 : applyInOrder Us ^ A.trotterNumber.toNat = Complex.exp (-Complex.I * σ) • applyInOrder Vs ^ A.trotterNumber.toNat := by
    rw [e1, smul_pow, ← Complex.exp_nat_mul]
    congr 2
    have : ((A.trotterNumber.toNat : ℕ) : ℂ) = (A.trotterNumber : ℂ) := by
      have := Int.toNat_of_nonneg (show 0 ≤ A.trotterNumber by have := hA.steps; omega)
      exact_mod_cast this
    rw [this]; field_simp
  have hT : ∀ q, (hq : A.nqb ≤ q) → ∃ C, trotterizeWCRz A.tempOp q 1 false A.trotterNumber 1 = .ok (C, 1) ∧
      C.op = ctrlOp q true (applyInOrder Vs ^ A.trotterNumber.toNat) ∧ OffQubit q (applyInOrder Vs ^ A.trotterNumber.toNat) ∧ C.Fits (q + 1) ∧ ∀ g ∈ C, ExactGate g := by
    intro q hq
    obtain ⟨C, ph, W, Vs', h1, h2, h3, h4, h5, h6, h7⟩ := run q hq
    have : Vs' = Vs := forall₂_exp_unique (f := fun t => 1 * t.1 / (A.trotterNumber : ℂ)) h2 hVs
    rw [this] at h4
    have hp : ph = 1 := h7 fun x hx => by
      obtain ⟨t, _, e, e', _⟩ := hterm x hx
      rw [← e]; exact e'
    rw [hp, one_smul] at h4
    rw [hp] at h1
    rw [h4] at h3 h5
    refine ⟨C, h1, h3, h5, fun g hg => ?_, fun g hg => (h6 g hg).1.2⟩
    obtain ⟨x, hx, a, b⟩ := (h6 g hg).2
    obtain ⟨t, ht, e, _⟩ := hterm x hx
    rw [← e] at a b
    have key : ∀ j ∈ q :: t.2.map Gate.target, j < q + 1 := by
      intro j hj
      rcases List.mem_cons.1 hj with rfl | hj
      · omega
      · obtain ⟨y, hy, rfl⟩ := List.mem_map.1 hj
        have := ((hA.ham t ht).2.fits y hy).1
        omega
    exact ⟨key _ a, key _ b⟩
  refine ⟨applyInOrder Us ^ A.trotterNumber.toNat, fun Φ => ⟨Us, hUs, rfl⟩, ?_, ?_⟩
  · intro q hq
    obtain ⟨_, _, _, h, _⟩ := hT q hq
    rw [e2]
    intro m
    exact (h m).smul_right _
  · intro U n
    obtain ⟨C, c1, c2, c3, c4, c5⟩ := hT (A.nqb + n) (by omega)
    have him : (-1 * A.scalarTerms.sum * ((2 ^ n : ℕ) : ℂ)) = ((-(σ.re) * 2 ^ n : ℝ) : ℂ) := by
      have : σ = (σ.re : ℂ) := by
        apply Complex.ext
        · simp
        · rw [hσ, scalarTerms_eq]
          simp only [Complex.ofReal_im]
          have : ∀ l : QubitOperator, (∀ t ∈ l, t.1.im = 0) → (l.map fun s => s.1 * (A.t : ℂ)).sum.im = 0 := by
            intro l
            induction l with
            | nil => simp
            | cons t l ih => intro h; rw [List.map_cons, List.sum_cons, Complex.add_im, ih fun s hs => h s (by simp [hs])]; simp [h t (by simp)]
          exact this _ fun t ht => (hA.ham t (List.mem_filter.1 ht).1).1
      rw [← hσ, this]; push_cast; simp
    have hσ' : Complex.exp (Complex.I * ((-(σ.re) * 2 ^ n : ℝ) : ℂ)) = Complex.exp (-Complex.I * σ) ^ (2 ^ n) := by
      rw [← him, ← hσ, ← Complex.exp_nat_mul]; congr 1; ring
    obtain ⟨r, hr⟩ : ∃ r, makeGate "R" (A.nqb + n) (A.nqb + n) (-(σ.re) * 2 ^ n) = .ok r := ⟨_, makeGate_of_made (.R _ _)⟩
    refine ⟨[r] ++ (List.replicate (2 ^ n) C).flatten, ?_, ?_, ?_, ?_⟩
    · unfold QpeAlg.dynStep
      simp only [c1, except_ok_bind, him]
      unfold pyGate3
      rw [if_neg (by rw [Complex.ofReal_im]; simp), Complex.ofReal_re, hr, except_ok_bind]
      simp only [pure, Except.pure]
      congr 1
      have : ∀ k (X : Circuit), (List.range k).foldl (fun U _ => Circuit.addCircuit U C) X = X ++ (List.replicate k C).flatten := by
        intro k
        induction k with
        | zero => simp
        | succ k ih => intro X; rw [List.range_succ, List.foldl_append, ih, List.replicate_succ']; simp [addCircuit_eq]
      rw [this]
      simp [Circuit.addGate]
    · rw [Circuit.op_append]
      have e3 : Circuit.op (List.replicate (2 ^ n) C).flatten = ctrlOp (A.nqb + n) true ((applyInOrder Vs ^ A.trotterNumber.toNat) ^ (2 ^ n)) := by
        rw [← ctrlOp_pow c3, ← c2]
        generalize 2 ^ n = k
        induction k with
        | zero => rfl
        | succ k ih => rw [List.replicate_succ, List.flatten_cons, Circuit.op_append, ih, pow_succ]
      have e4 : Circuit.op [r] = r.op := by simp [Circuit.op]
      rw [e3, e4, op_phase hr, ctrlOp_mul (c3.pow _), hσ', e2, smul_pow, mul_smul_comm, mul_one]
    · intro g hg
      rcases List.mem_append.1 hg with hg | hg
      · rw [List.mem_singleton.1 hg, (makeGate_spec hr).2.1, (makeGate_spec hr).2.2.1]; omega
      · obtain ⟨l, hl, hg⟩ := List.mem_flatten.1 hg
        rw [List.eq_of_mem_replicate hl] at hg
        exact c4 g hg
    · intro g hg
      rcases List.mem_append.1 hg with hg | hg
      · rw [List.mem_singleton.1 hg]; exact exact_R hr
      · obtain ⟨l, hl, hg⟩ := List.mem_flatten.1 hg
        rw [List.eq_of_mem_replicate hl] at hg
        exact c5 g hg

/-- `get_dynamics_circ`: on a basis state whose ancillas hold the number `y` (first ancilla least significant), `y` steps of the Trotterized evolution -/
theorem dynamics_ok {A : QpeAlg} (hA : A.Ready) (na : ℕ) : ∃ D W, A.dynamics na = .ok D ∧ (∀ Φ, TrotterState A.ham A.trotterNumber A.t Φ (W Φ)) ∧
    (∀ q, A.nqb ≤ q → OffQubit q W) ∧ (∀ ψ I, D.op ψ I = (W ^ leVal I A.nqb na) ψ I) ∧ D.Fits (A.nqb + na) ∧ ∀ g ∈ D, ExactGate g := by
  obtain ⟨W, h1, h2, h3⟩ := dynStep_ok hA
  suffices h : ∃ D, A.dynamics na = .ok D ∧ (∀ ψ I, D.op ψ I = (W ^ leVal I A.nqb na) ψ I) ∧ D.Fits (A.nqb + na) ∧ ∀ g ∈ D, ExactGate g by
    obtain ⟨D, a, b, c, d⟩ := h
    exact ⟨D, W, a, h1, h2, b, c, d⟩
  unfold QpeAlg.dynamics
  induction na with
  | zero => exact ⟨[], rfl, fun ψ I => by simp [Circuit.op, leVal], by simp [Circuit.Fits], by simp⟩
  | succ n ih =>
    obtain ⟨D, a, b, c, d⟩ := ih
    obtain ⟨C, c1, c2, c3, c4⟩ := h3 D n
    refine ⟨D ++ C, ?_, ?_, ?_, ?_⟩
    · rw [List.range_succ, List.foldlM_append, a, except_ok_bind]
      simp only [List.foldlM_cons, List.foldlM_nil, c1, except_ok_bind]; rfl
    · intro ψ I
      rw [Circuit.op_append, Module.End.mul_apply, c2, ctrlOp_apply, leVal_snoc]
      cases e : I.testBit (A.nqb + n)
      · simp [b]
      · rw [if_pos rfl, Bool.toNat_true, one_mul, add_comm, pow_add, Module.End.mul_apply]
        refine off_congr ((List.range n).map fun i => A.nqb + i) ?_ _ _ I ?_
        · intro q hq
          obtain ⟨i, _, rfl⟩ := List.mem_map.1 hq
          exact (h2 _ (by omega)).pow _
        · intro J hJ
          rw [b]
          have : leVal J A.nqb n = leVal I A.nqb n := ?_
          · rw [this]
          unfold leVal
          refine (Finset.sum_congr rfl fun i hi => ?_)
          rw [hJ _ (List.mem_map.2 ⟨i, by simpa using hi, rfl⟩)]
    · intro g hg
      rcases List.mem_append.1 hg with hg | hg
      · have := c g hg; omega
      · have := c3 g hg; omega
    · intro g hg
      rcases List.mem_append.1 hg with hg | hg
      · exact d g hg
      · exact c4 g hg

end QF
