import Verif.Props.MomentSpace

/-!
C95: the moment-corrected energies.
-/
namespace QF

open SQOperator (DescSort)
open QubitOperator (SortOracle)
open SQOpPool Filter Topology

namespace Moments
open Spqe (Target targets poolOf Sound estimate detResidual)

/-- `E + Σ_I w_I / d_I` over the determinants `dets`; not a finite number (`none`) if a denominator is zero -/
noncomputable def corrected (E : ℝ) (dets : List ℕ) (w : ℕ → ℝ) (d : ℕ → ℂ) : Option ℝ :=
  open Classical in if ∃ I ∈ dets, d I = 0 then none else some (E + (dets.map fun I => ((w I : ℂ) / d I).re).sum)

theorem sumFinite_acc (l : List ℕ) (w : ℕ → ℝ) (d : ℕ → ℂ) (f : ℕ → Option ℝ) (h0 : ∀ I ∈ l, d I = 0 → f I = none) (h1 : ∀ I ∈ l, d I ≠ 0 → f I = some ((w I : ℂ) / d I).re) :
    ∀ a : Option ℝ, (l.map f).foldl (fun s x => s.bind fun a => x.map (a + ·)) a =
      a.bind fun a => open Classical in if ∃ I ∈ l, d I = 0 then none else some (a + (l.map fun I => ((w I : ℂ) / d I).re).sum) := by
  classical
  induction l with
  | nil => intro a; cases a <;> simp
  | cons J l ih =>
    intro a
    rw [List.map_cons, List.foldl_cons, ih (fun I hI => h0 I (by simp [hI])) (fun I hI => h1 I (by simp [hI]))]
    cases a with
    | none => rfl
    | some a =>
      by_cases hJ : d J = 0
      · rw [h0 J (by simp) hJ]
        simp [hJ]
      · rw [h1 J (by simp) hJ]
        simp [hJ, add_assoc]

theorem corrected_eq (E : ℝ) (l : List ℕ) (w : ℕ → ℝ) (d : ℕ → ℂ) (f : ℕ → Option ℝ) (h0 : ∀ I ∈ l, d I = 0 → f I = none) (h1 : ∀ I ∈ l, d I ≠ 0 → f I = some ((w I : ℂ) / d I).re) :
    (sumFinite (l.map f)).map (E + ·) = corrected E l w d := by
  classical
  unfold sumFinite corrected
  rw [sumFinite_acc l w d f h0 h1]
  by_cases h : ∃ I ∈ l, d I = 0
  · simp [h]
  · simp [h]

theorem quotient_zero {r d : ℂ} (h : d = 0) : quotient r d = none := by unfold quotient; rw [if_pos h]

theorem quotient_ne {r d : ℂ} (dt : ℝ) (h : d ≠ 0) : quotient (r / (dt : ℂ)) d = some (((‖r‖ ^ 2 / (dt * dt) : ℝ) : ℂ) / d).re := by
  unfold quotient
  rw [if_neg h]
  congr 3
  rw [map_div₀, Complex.conj_ofReal]
  have : (starRingEnd ℂ) r * r = ((‖r‖ ^ 2 : ℝ) : ℂ) := by
    rw [mul_comm, Complex.mul_conj, Complex.normSq_eq_norm_sq]
  rw [div_mul_div_comm, this]
  push_cast
  rfl

theorem pyIndex_map {α : Type} (f : ℕ → α) (l : List ℕ) {i : ℕ} (hi : i < l.length) : pyIndex (l.map f) i = .ok (f l[i]) :=
  pyIndex_ok (by rw [List.getElem?_map, List.getElem?_eq_getElem hi]; rfl)

theorem range_map_getElem {α : Type} (f : ℕ → α) (l : List ℕ) (g : ℕ → α) (h : ∀ i (hi : i < l.length), g i = f l[i]) : (List.range l.length).map g = l.map f := by
  apply List.ext_getElem
  · simp
  · intro i h1 h2
    simp only [List.length_map, List.length_range] at h1
    simp [h i h1]

variable {A : PqeAlg} {k R : ℕ} {irr : List ℕ}

/-- the propagator `exp(i dt H)` in its Trotter approximation -/
theorem Setting.propagator (h : Setting A k R irr) (dt : ℝ) : ∃ C ph, trotterize A.ham ((dt : ℂ) * Complex.I) A.trotterNumber = .ok (C, ph) ∧ C.Fits A.nqb ∧ (∀ g ∈ C, ApiGate g ∧ ExactGate g) ∧
    ∀ Φ : St, TrotterState A.ham A.trotterNumber (-dt) Φ (ph • C.op Φ) := by
  obtain ⟨C, ph, Us, h1, h2, h3, h4⟩ := trotterize_fits A.nqb A.ham ((dt : ℂ) * Complex.I) A.trotterNumber 1 le_rfl (by have := h.steps; omega)
    (fun t ht => trotterTerm_of (h.ham t ht).2) (fun t ht g hg => ((h.ham t ht).2.fits g hg).1) (fun t ht => by
      have := (h.ham t ht).1
      simp [this])
  refine ⟨C, ph, h1, fun g hg => (h4 g hg).2, fun g hg => (h4 g hg).1, fun Φ => ⟨Us, ?_, ?_⟩⟩
  · refine h2.imp ?_
    intro t U h
    convert! h using 3
    push_cast; ring
  · rw [← h3]; rfl

/-- the two energies, for a space whose determinants are on the register -/
theorem energies_core (o : DescSort) (so : SortOracle) (h : Setting A k R irr) {U : Circuit} (hU : A.ansatzCircuit o so none = .ok U) (hF : U.Fits A.nqb)
    (hX : ∀ g ∈ U, ApiGate g ∧ ExactGate g) {S : Space} {en : List ℂ} {d e : ℕ → ℂ} (hS : ∀ I ∈ S.indices, I < 2 ^ A.nqb) (hd : S.mpdenom = S.indices.map d) (he : en = S.indices.map e)
    (E : ℝ) (dt? : Option ℝ) (dt : ℝ) (hdt : dt?.getD 0.001 = dt) {K : Circuit} {ph : ℂ} (hK : trotterize A.ham ((dt : ℂ) * Complex.I) A.trotterNumber = .ok (K, ph)) :
    momentEnergies o so A S en E dt? = if dt = 0 then .error .zeroDivisionError else
      .ok (corrected E S.indices (estimate A.nqb K.op U.op A.reference dt) d, corrected E S.indices (estimate A.nqb K.op U.op A.reference dt) fun I => (E : ℂ) - e I) := by
  classical
  obtain ⟨K', ph', k1, k2, k3, _⟩ := h.propagator dt
  rw [hK] at k1
  obtain ⟨rfl, rfl⟩ := Prod.mk.inj (Except.ok.inj k1)
  have e0 : A.initialComputer = Computer.init A.nqb := by unfold UccAlg.initialComputer; rw [h.fresh]; rfl
  obtain ⟨q1, e1, w1, n1, p1⟩ := applyCircuit_exact (q := Computer.init A.nqb) A.uprep (Computer.WF.init _) h.ready.prep.1 h.ready.prep.2
  obtain ⟨q2, e2, w2, n2, p2⟩ := applyCircuit_exact (q := q1) U w1 (by rw [n1]; exact hF) (fun g hg => (hX g hg).2)
  have hn2 : q2.nqubit = A.nqb := n2.trans n1
  obtain ⟨q3, e3, w3, n3, p3⟩ := applyCircuit_exact (q := q2) K w2 (by rw [hn2]; exact k2) (fun g hg => (k3 g hg).2)
  have hn3 : q3.nqubit = A.nqb := n3.trans hn2
  obtain ⟨q4, e4, w4, n4, p4⟩ := applyCircuit_exact (q := q3) U.adjoint w3 (by rw [hn3]; exact adj_fits hF) (adjoint_exact hX)
  have hn4 : q4.nqubit = A.nqb := n4.trans hn3
  have hpsi : q4.psi = U.adjoint.op (K.op (U.op A.reference)) := by rw [p4, p3, p2, p1, UccAlg.reference, e0]
  unfold momentEnergies
  simp only [hdt]
  rw [hK, except_ok_bind]
  simp only
  rw [hU, except_ok_bind, e1, except_ok_bind, e2, except_ok_bind, e3, except_ok_bind, e4, except_ok_bind]
  by_cases h0 : dt = 0
  · rw [if_pos h0, if_pos h0]; rfl
  rw [if_neg h0, if_neg h0]
  have hmm : S.indices.mapM (pyIndex (q4.coeff.map (· / (dt : ℂ)))) = .ok (S.indices.map fun I => detResidual A.nqb K.op U.op A.reference I / (dt : ℂ)) := by
    refine mapM_ok _ _ _ fun I hI => pyIndex_ok ?_
    rw [List.getElem?_map, Spqe.coeff_inner hX hF w4 hn4 hpsi (hS I hI)]
    rfl
  simp only [Pure.pure, Except.pure, Bind.bind, Except.bind, hmm, List.length_map]
  rw [mapM_ok _ (fun i => quotient (detResidual A.nqb K.op U.op A.reference (S.indices.getD i 0) / (dt : ℂ)) (d (S.indices.getD i 0)))]
  · simp only
    rw [mapM_ok _ (fun i => quotient (detResidual A.nqb K.op U.op A.reference (S.indices.getD i 0) / (dt : ℂ)) ((E : ℂ) - e (S.indices.getD i 0)))]
    · simp only
      rw [range_map_getElem (fun I => quotient (detResidual A.nqb K.op U.op A.reference I / (dt : ℂ)) (d I)) S.indices _ fun i hi => by rw [List.getD_eq_getElem _ _ hi],
        range_map_getElem (fun I => quotient (detResidual A.nqb K.op U.op A.reference I / (dt : ℂ)) ((E : ℂ) - e I)) S.indices _ fun i hi => by rw [List.getD_eq_getElem _ _ hi],
        corrected_eq E S.indices (estimate A.nqb K.op U.op A.reference dt) d, corrected_eq E S.indices (estimate A.nqb K.op U.op A.reference dt) fun I => (E : ℂ) - e I]
      · exact fun I _ hz => quotient_zero hz
      · exact fun I _ hz => quotient_ne dt hz
      · exact fun I _ hz => quotient_zero hz
      · exact fun I _ hz => quotient_ne dt hz
    · intro i hi
      have hi := List.mem_range.1 hi
      rw [pyIndex_map _ _ hi, he, List.getD_eq_getElem _ _ hi]
      simp only [pyIndex_map _ _ hi]
  · intro i hi
    have hi := List.mem_range.1 hi
    rw [pyIndex_map _ _ hi, hd, List.getD_eq_getElem _ _ hi]
    simp only [pyIndex_map _ _ hi]

/-- C95: the two energies that `compute_moment_energies` appends, for a moment space built by `construct_moment_space`.  With `m_I = ⟨I|U† K U|Φ⟩/dt`, where `U` is the ansatz
circuit and `K` the Trotter circuit of `exp(i dt H)`, they are `E + Σ_I |m_I|² / (Σ_holes ε - Σ_particles ε)` and `E + Σ_I |m_I|² / (E - ⟨I|H|I⟩)`, summed over the
determinants of the space.  `moment_dt = None` means 0.001; `moment_dt = 0` raises `ZeroDivisionError`. -/
theorem C95_energies (o : DescSort) (so : SortOracle) (A : PqeAlg) (k R : ℕ) (irr : List ℕ) (h : Setting A k R irr) (orbE : List ℂ) (hE : 2 * k ≤ orbE.length) (r : ℤ)
    (h19 : (A.ref.filter (· ≠ 0)).length ≤ 19 ∨ r ≤ 19) (S : Space) (en : List ℂ) (hS : constructSpace o none A irr orbE r = .ok (S, en)) (U : Circuit)
    (hU : A.ansatzCircuit o so none = .ok U) (hF : U.Fits A.nqb) (hX : ∀ g ∈ U, ApiGate g ∧ ExactGate g) (E : ℝ) (dt? : Option ℝ) (dt : ℝ) (hdt : dt?.getD 0.001 = dt) :
    (dt = 0 → momentEnergies o so A S en E dt? = .error .zeroDivisionError) ∧
    ∃ (K : Circuit) (ph : ℂ), trotterize A.ham ((dt : ℂ) * Complex.I) A.trotterNumber = .ok (K, ph) ∧ (∀ Φ : St, TrotterState A.ham A.trotterNumber (-dt) Φ (ph • K.op Φ)) ∧
      (dt ≠ 0 → momentEnergies o so A S en E dt? = .ok
        (corrected E (targets k R irr 0 (some r)) (fun I => ‖inner A.nqb (U.op (Pi.single I 1)) (K.op (U.op (Pi.single R 1)))‖ ^ 2 / (dt * dt))
          (fun I => ((holes (2 * k) R I).map fun p => orbE.getD p 0).sum - ((holes (2 * k) I R).map fun p => orbE.getD p 0).sum),
        corrected E (targets k R irr 0 (some r)) (fun I => ‖inner A.nqb (U.op (Pi.single I 1)) (K.op (U.op (Pi.single R 1)))‖ ^ 2 / (dt * dt))
          (fun I => (E : ℂ) - inner A.nqb (Pi.single I 1) (A.ham.op (Pi.single I 1))))) := by
  obtain ⟨hneg, hok⟩ := C95_space o A k R irr h orbE hE r
  by_cases hr : r < 0
  · rw [hneg hr] at hS; exact absurd hS (by simp)
  obtain ⟨S', en', s1, s2, s3, s4, s5⟩ := hok (by omega) h19
  rw [hS] at s1
  obtain ⟨rfl, rfl⟩ := Prod.mk.inj (Except.ok.inj s1)
  obtain ⟨K, ph, k1, k2, k3, k4⟩ := h.propagator dt
  have hlt : ∀ I ∈ S.indices, I < 2 ^ A.nqb := by
    intro I hI
    rw [s2] at hI
    rw [h.size]
    exact (((Spqe.C86_complete k R irr 0 (some r)).1 I).1 hI).1
  have key := energies_core o so h hU hF hX hlt s4 s5 E dt? dt hdt k1
  refine ⟨fun h0 => by rw [key, if_pos h0], K, ph, k1, k4, fun h0 => ?_⟩
  rw [key, if_neg h0, s2, h.reference]
  rfl

/-- C95: the limit.  As `moment_dt → 0` the moment-corrected energy tends to `E + Σ_I |⟨I|U† H U|Φ⟩|² / d_I`, for every ansatz circuit, every Trotter number and all nonzero
denominators. -/
theorem C95_limit (A : PqeAlg) (k R : ℕ) (irr : List ℕ) (h : Setting A k R irr) (U : Circuit) (hF : U.Fits A.nqb) (hX : ∀ g ∈ U, ApiGate g ∧ ExactGate g)
    (dets : List ℕ) (hD : ∀ I ∈ dets, I < 2 ^ A.nqb ∧ I ≠ R) (d : ℕ → ℂ) (h0 : ∀ I ∈ dets, d I ≠ 0) (E : ℝ) (K : ℝ → Circuit) (ph : ℝ → ℂ)
    (hK : ∀ dt : ℝ, trotterize A.ham ((dt : ℂ) * Complex.I) A.trotterNumber = .ok (K dt, ph dt)) :
    ∃ f : ℝ → ℝ, (∀ dt, corrected E dets (fun I => ‖inner A.nqb (U.op (Pi.single I 1)) ((K dt).op (U.op (Pi.single R 1)))‖ ^ 2 / (dt * dt)) d = some (f dt)) ∧
      Tendsto f (𝓝[≠] 0) (𝓝 (E + (dets.map fun I => (((‖inner A.nqb (U.op (Pi.single I 1)) (A.ham.op (U.op (Pi.single R 1)))‖ ^ 2 : ℝ) : ℂ) / d I).re).sum)) := by
  classical
  have hI : Spqe.Input { A with compact := false } { dt := 1, rank := some 1, optimizer := "bfgs" } k R irr :=
    ⟨h.size, h.pos, h.small, h.occ, h.len, h.isRef, h.prep, h.irreps, fun r e => by cases e; norm_num, .inr ⟨1, rfl, by norm_num⟩,
      ⟨h.ready.wf, h.ready.size, h.ready.prep, h.ready.ham⟩, h.fresh, rfl, h.steps, h.ham⟩
  refine ⟨fun dt => E + (dets.map fun I => (((‖inner A.nqb (U.op (Pi.single I 1)) ((K dt).op (U.op (Pi.single R 1)))‖ ^ 2 / (dt * dt) : ℝ) : ℂ) / d I).re).sum, fun dt => ?_, ?_⟩
  · unfold corrected
    rw [if_neg (by rintro ⟨I, h1, h2⟩; exact h0 I h1 h2)]
  refine Tendsto.const_add _ ?_
  have href := h.reference
  have each : ∀ I ∈ dets, Tendsto (fun dt : ℝ => (((‖inner A.nqb (U.op (Pi.single I 1)) ((K dt).op (U.op (Pi.single R 1)))‖ ^ 2 / (dt * dt) : ℝ) : ℂ) / d I).re) (𝓝[≠] 0)
      (𝓝 (((‖inner A.nqb (U.op (Pi.single I 1)) (A.ham.op (U.op (Pi.single R 1)))‖ ^ 2 : ℝ) : ℂ) / d I).re) := by
    intro I hm
    have := Spqe.C88_estimate _ _ k R irr hI h.start U hF hX I (hD I hm).1 (hD I hm).2 K ph hK
    have hr : ({ A with compact := false } : PqeAlg).reference = Pi.single R 1 := href
    rw [hr] at this
    exact (Complex.continuous_re.tendsto _).comp (((Complex.continuous_ofReal.tendsto _).comp this).div_const (d I))
  clear hD h0
  induction dets with
  | nil => simp
  | cons I l ih =>
    simp only [List.map_cons, List.sum_cons]
    exact (each I (by simp)).add (ih fun J hJ => each J (by simp [hJ]))

/-- C95: for an exact ansatz the corrections vanish.  If `U|Φ⟩` is an eigenvector of `H`, all moments are zero, so that both corrected energies tend to the uncorrected one. -/
theorem C95_exact (A : PqeAlg) (U : Circuit) (hF : U.Fits A.nqb) (hX : ∀ g ∈ U, ApiGate g ∧ ExactGate g) (R : ℕ) (l : ℂ)
    (hl : A.ham.op (U.op (Pi.single R 1)) = l • U.op (Pi.single R 1)) (I : ℕ) (hne : I ≠ R) :
    inner A.nqb (U.op (Pi.single I 1)) (A.ham.op (U.op (Pi.single R 1))) = 0 := by
  rw [hl, inner_smul_right, inner_circuit hF fun g hg => C02_unitary (hX g hg).1]
  have : inner A.nqb (Pi.single I 1) (Pi.single R 1) = 0 := by
    unfold inner
    apply Finset.sum_eq_zero
    intro J _
    by_cases hJ : J = I
    · subst hJ; simp [Pi.single_eq_of_ne hne]
    · simp [Pi.single_eq_of_ne hJ]
  rw [this, mul_zero]

end Moments
end QF
