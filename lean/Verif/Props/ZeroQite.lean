import Verif.Props.ZeroUcc
import Verif.Props.QiteDescent
import Verif.Props.QiteExample

/-!
C120 for QITE: the steps depend on the zero of the energy, through the normalisation `1 - 2 db ⟨H⟩` of build_b, ite/qite.py:305-326.
-/
namespace QF
namespace QiteAlg

theorem inner_pauli_im {n : ℕ} {σ : Circuit} (hσ : σ.PauliString n) (ψ : St) : (inner n ψ (σ.op ψ)).im = 0 := by
  have h := pauli_herm hσ ψ ψ
  have h2 : inner n (σ.op ψ) ψ = (starRingEnd ℂ) (inner n ψ (σ.op ψ)) := (inner_conj n _ _).symm
  rw [h2] at h
  exact Complex.conj_eq_iff_im.1 h.symm

/-- C120: with a constant added to the Hamiltonian, all elements of the right-hand side are multiplied by the same number -/
theorem C120_qite_rhs {n : ℕ} {H H' : Op} {c db : ℝ} (hs : H' = H + (c : ℂ) • (1 : Op)) {ψ : St} (h1 : inner n ψ ψ = 1) {σ : Circuit} (hσ : σ.PauliString n)
    (hp : 0 < 1 - 2 * db * energy n H ψ) :
    rhsElem n H' db ψ σ = rhsElem n H db ψ σ * (Real.sqrt (1 - 2 * db * energy n H ψ) / Real.sqrt (1 - 2 * db * (energy n H ψ + c))) := by
  unfold rhsElem
  have hE : energy n H' ψ = energy n H ψ + c := by rw [energy_shift n hs, h1]; simp
  have e : H' ψ = H ψ + (c : ℂ) • ψ := by rw [hs]; rfl
  have hi : inner n ψ (σ.op (H' ψ)) = inner n ψ (σ.op (H ψ)) + c * inner n ψ (σ.op ψ) := by
    rw [e, map_add, map_smul]
    unfold inner
    rw [Finset.mul_sum, ← Finset.sum_add_distrib]
    refine Finset.sum_congr rfl fun I _ => ?_
    simp only [Pi.add_apply, Pi.smul_apply, smul_eq_mul]
    ring
  rw [hE, hi, Complex.add_im, Complex.im_ofReal_mul, inner_pauli_im hσ, mul_zero, add_zero]
  have hne : Real.sqrt (1 - 2 * db * energy n H ψ) ≠ 0 := (Real.sqrt_pos.2 hp).ne'
  field_simp

/-- C120: QITE with the selection of the strings does not evolve at all if the constant is so large that `1 - 2 db (E + c) ≤ 0`: every energy of the run is that of the reference. -/
theorem C120_qite_stalls {A : QiteAlg} (hA : A.Ready) {ls : LstsqOracle} (hls : IsLstsq ls) {par : Option Schedule} {c : ℝ} {ham' : QubitOperator} (hs : Shifted c A.ham ham')
    (hp : ({ A with ham := ham' } : QiteAlg).GoodBuild par) (hdb : A.db ≠ 0) {σ : List Circuit} (hσ : ∀ c ∈ σ, c.PauliString A.nqb) (hsp : A.sparseSb = true)
    (hl : A.doLanczos = false) (hc : 1 - 2 * A.db * (energy A.nqb A.ham.op A.reference + c) ≤ 0)
    (N : SQOpPool.NextPerm) (o : SQOperator.DescSort) (so : QubitOperator.SortOracle) (fuel : ℕ) (eig : EigOracle) (hpool : A.buildExpansionPool N o so fuel = .ok (poolOf σ)) :
    ∃ (st : QiteState) (z : ℂ), ({ A with ham := ham' } : QiteAlg).run N o so fuel ls eig par = .ok (st, poolOf σ, energy A.nqb A.ham.op A.reference + c, none) ∧
      ‖z‖ = 1 ∧ st.qc.psi = z • A.reference ∧ ∀ e ∈ st.ekb, e = energy A.nqb A.ham.op A.reference + c := by
  set B : QiteAlg := { A with ham := ham' } with hB
  have hrB : B.Ready := ⟨hA.prep, hs.ready hA.ham, hA.steps⟩
  obtain ⟨st, ψ, x, ph, e, h⟩ := C82_run hrB hls hp hdb hσ (.inl hsp) hl N o so fuel eig hpool
  have hone : inner A.nqb A.reference A.reference = 1 := by
    have := h.norm 0 (by omega)
    rw [h.start] at this
    exact this
  have hE0 : ∀ z : ℂ, ‖z‖ = 1 → energy A.nqb ham'.op (z • A.reference) = energy A.nqb A.ham.op A.reference + c := by
    intro z hz
    have : inner A.nqb (z • A.reference) (ham'.op (z • A.reference)) = inner A.nqb A.reference (ham'.op A.reference) := by
      rw [map_smul, inner_smul_left', inner_smul_right, ← mul_assoc, ← Complex.normSq_eq_conj_mul_self, Complex.normSq_eq_norm_sq, hz]
      simp
    unfold energy
    rw [this, inner_shift _ hs.op, hone]
    simp
  have key : ∀ k ≤ (pyTrunc (B.beta / B.db)).toNat, ∃ z : ℂ, ‖z‖ = 1 ∧ ψ k = z • A.reference := by
    intro k
    induction k with
    | zero => intro _; exact ⟨1, by simp, by rw [h.start, one_smul]; rfl⟩
    | succ k ih =>
      intro hk
      obtain ⟨z, hz, hψ⟩ := ih (by omega)
      obtain ⟨hstep, hph⟩ := h.step k (by omega)
      have hneg : 1 - 2 * B.db * energy B.nqb B.ham.op (ψ k) ≤ 0 := by
        rw [hψ]
        show 1 - 2 * A.db * energy A.nqb ham'.op (z • A.reference) ≤ 0
        rw [hE0 z hz]
        exact hc
      have := (C82_stall hrB (ls := ls) (par := par) hσ hneg).1 hsp _ _ hstep
      have hph0 : ph k ≠ 0 := fun h0 => by rw [h0] at hph; simp at hph
      refine ⟨(ph k)⁻¹ * z, by rw [norm_mul, norm_inv, hph, hz]; simp, ?_⟩
      rw [mul_smul, ← hψ, ← this, smul_smul, inv_mul_cancel₀ hph0, one_smul]
  have hE : ∀ k ≤ (pyTrunc (B.beta / B.db)).toNat, energy B.nqb B.ham.op (ψ k) = energy A.nqb A.ham.op A.reference + c := by
    intro k hk
    obtain ⟨z, hz, hψ⟩ := key k hk
    rw [hψ]
    exact hE0 z hz
  obtain ⟨z, hz, hψ⟩ := key _ le_rfl
  refine ⟨st, z, ?_, hz, by rw [h.current, hψ], fun E hm => ?_⟩
  · rw [e, hE _ le_rfl]
  · rw [h.ekb] at hm
    obtain ⟨k, hk, rfl⟩ := List.mem_map.1 hm
    exact hE k (by have := List.mem_range.1 hk; omega)

/-- the number `3` added to the Hamiltonian `X` of the example -/
theorem demo_shifted : Shifted 3 demo.ham (demo.ham ++ [(3, [])]) := ⟨demo.ham, [], 0, 3, .inr ⟨rfl, by simp⟩, by simp, by norm_num⟩

/-- the example without the Lanczos procedure -/
noncomputable def demo2 : QiteAlg := { demo with doLanczos := false }

theorem demo2_step {χ : St} {x : List ℝ} (h : IsStep demo2 [[gY 0]] demo2.reference χ x) : ¬∃ z : ℂ, ‖z‖ = 1 ∧ χ = z • demo2.reference := by
  have href : demo2.reference = Pi.single 0 1 := demo_ref
  have hr : rhsElem demo2.nqb demo2.ham.op demo2.db demo2.reference [gY 0] = -1 := demo_rhs
  have hE : energy demo2.nqb demo2.ham.op demo2.reference = 0 := demo_energy
  have hch : demo2.chosen [[gY 0]] demo2.reference = [[gY 0]] := by
    unfold chosen
    rw [if_pos (by rfl), if_neg (by rw [hE]; norm_num)]
    refine List.filter_eq_self.2 fun c hc => ?_
    obtain rfl := List.mem_singleton.1 hc
    rw [hr]
    norm_num [demo2, demo]
  have hs := h.solves 0 (by rw [hch]; simp)
  have he := h.evolved
  rw [hch] at hs he
  simp only [List.length_singleton, Finset.sum_range_one, List.getD_cons_zero] at hs
  rw [hr, href] at hs
  have hy : (inner demo2.nqb (Circuit.op [gY 0] (Pi.single 0 1)) (Circuit.op [gY 0] (Pi.single 0 1))).re = 1 := by
    simp [inner, Finset.sum_range_succ, opY_apply, flipBit, Circuit.op, demo2, demo]
  rw [hy, one_mul] at hs
  cases x with
  | nil => simp at hs
  | cons x0 xs =>
    simp only [List.getD_cons_zero] at hs
    subst hs
    have hk : demo2.kept [[gY 0]] (-1 :: xs) = [(((-1 : ℝ) : ℂ), [gY 0])] := by
      unfold kept
      rw [List.zip_cons_cons, List.zip_nil_right, List.filter_cons_of_pos (by norm_num [demo2, demo])]
      rfl
    rw [hk] at he
    obtain ⟨Us, u1, rfl⟩ := he
    rw [List.forall₂_cons_left_iff] at u1
    obtain ⟨U, Us', hU, u2, rfl⟩ := u1
    cases u2
    rintro ⟨z, -, hz⟩
    have hop : Circuit.op [gY 0] = opY 0 := by simp [Circuit.op]
    rw [hop] at hU
    have e := hU.unique (isExp_invol (opY_sq 0) _)
    have v := congrFun hz 1
    have hN : demo2.trotterNumber = 1 := rfl
    rw [e, href, hN] at v
    simp [applyInOrder, opY_apply, flipBit, demo2, demo] at v
    rw [mul_comm, Complex.sinh_mul_I, mul_eq_zero, or_iff_left Complex.I_ne_zero] at v
    have h5 : (5⁻¹ : ℂ) = ((5⁻¹ : ℝ) : ℂ) := by norm_num
    rw [h5, ← Complex.ofReal_sin, Complex.ofReal_eq_zero] at v
    have hp : 0 < Real.sin (5⁻¹ : ℝ) := Real.sin_pos_of_pos_of_lt_pi (by norm_num) (by linarith [Real.pi_gt_three, (by norm_num : (5⁻¹ : ℝ) < 3)])
    exact hp.ne' v

/-- C120: QITE depends on the zero of the energy: for the Hamiltonian `X` the first step chooses the string `Y`, for the Hamiltonian `X + 3` every run with the same options ends in the
reference state. -/
theorem C120_qite_refuted (N : SQOpPool.NextPerm) (o : SQOperator.DescSort) (so : QubitOperator.SortOracle) (fuel : ℕ) (ls : LstsqOracle) (hls : IsLstsq ls) (eig : EigOracle) :
    ∃ (A : QiteAlg) (ham' : QubitOperator) (σ : List Circuit), A.Ready ∧ Shifted 3 A.ham ham' ∧ A.buildExpansionPool N o so fuel = .ok (poolOf σ) ∧
      (∀ st x, IsStep A σ A.reference st x → ¬∃ z : ℂ, ‖z‖ = 1 ∧ st = z • A.reference) ∧
      ∃ (st : QiteState) (z : ℂ), ({ A with ham := ham' } : QiteAlg).run N o so fuel ls eig none = .ok (st, poolOf σ, energy A.nqb A.ham.op A.reference + 3, none) ∧ ‖z‖ = 1 ∧
        st.qc.psi = z • A.reference := by
  have hready : demo2.Ready := ⟨demo_ready.prep, demo_ready.ham, demo_ready.steps⟩
  obtain ⟨σ, e, hnd, hσ⟩ := (C82_pool_qubit N o so fuel demo2 (by decide)).2 rfl (by decide)
  have hY : ∀ c : Circuit, c ∈ σ ↔ c = [gY 0] := by
    intro c
    rw [hσ]
    constructor
    · rintro ⟨h1, h2, h3⟩
      obtain ⟨p1, p2⟩ := canonical_iff.1 h1
      have ht : ∀ g ∈ c, g.target = 0 := fun g hg => by
        have : g.target < 1 := h2 g hg
        omega
      match c, p1, p2, h3, ht with
      | [], _, _, h3, _ => simp [Circuit.numY] at h3
      | [g], p1, _, h3, ht =>
        have hg := ht g (by simp)
        rcases (p1 g (by simp)).cases with h | h | h
        · rw [h] at h3; simp [Circuit.numY, gX] at h3
        · rw [h, hg]
        · rw [h] at h3; simp [Circuit.numY, gZ] at h3
      | g :: g' :: c, _, p2, _, ht =>
        have := List.rel_of_pairwise_cons p2 (show g' ∈ g' :: c by simp)
        rw [ht g (by simp), ht g' (by simp)] at this
        exact absurd this (lt_irrefl _)
    · rintro rfl
      exact ⟨demo_canonical, by simp [gY, demo2, demo], by simp [Circuit.numY, gY]⟩
  obtain rfl : σ = [[gY 0]] := by
    have h1 : [gY 0] ∈ σ := (hY _).2 rfl
    match σ, hnd, hY with
    | [], _, hY => exact absurd ((hY [gY 0]).2 rfl) (by simp)
    | [c], _, hY => rw [(hY c).1 (by simp)]
    | c :: c' :: l, hnd, hY =>
      have a := (hY c).1 (by simp)
      have b := (hY c').1 (by simp)
      rw [a, b] at hnd
      simp at hnd
  have hE : energy demo2.nqb demo2.ham.op demo2.reference = 0 := demo_energy
  obtain ⟨st, z, r1, r2, r3, -⟩ := C120_qite_stalls (A := demo2) hready hls (par := none) demo_shifted (.inl rfl) (by norm_num [demo2, demo])
    (σ := [[gY 0]]) (by
      intro c hc
      obtain rfl := List.mem_singleton.1 hc
      exact canonical_pauliString demo_canonical (by simp [gY, demo2, demo])) rfl rfl (by
        rw [hE]
        norm_num [demo2, demo]) N o so fuel eig e
  exact ⟨demo2, _, [[gY 0]], hready, demo_shifted, e, fun χ x h => demo2_step h, st, z, r1, r2, r3⟩

end QiteAlg
end QF
