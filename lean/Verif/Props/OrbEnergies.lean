import Verif.Props.MomentEnergy
import Verif.Props.SpqeExample

/-!
C95: the single-particle energies, the defects, and examples.
-/
namespace QF

open SQOperator (DescSort)
open QubitOperator (SortOracle)
open SQOpPool Filter Topology

namespace Moments
open Spqe (Target targets poolOf Sound estimate detResidual hopSpqe)

variable {A : PqeAlg} {k R : ℕ} {irr : List ℕ}

/-- the energy of spin orbital `p` for the determinant `R`: the energy lost when an electron is taken out of an occupied orbital, the energy gained when one is put into an empty one -/
noncomputable def koopmans (n : ℕ) (H : Op) (R p : ℕ) : ℂ :=
  if R.testBit p then detEnergy n H R - detEnergy n H (flipBit R p) else detEnergy n H (flipBit R p) - detEnergy n H R

/-- the energies `build_orb_energies` computes -/
theorem orbEnergies_ok (h : Setting A k R irr) : buildOrbEnergies none A none = .ok ((List.range A.nqb).map fun p =>
    if p < A.ref.sum then detEnergy A.nqb A.ham.op R - detEnergy A.nqb A.ham.op (flipBit R p) else detEnergy A.nqb A.ham.op (flipBit R p) - detEnergy A.nqb A.ham.op R) := by
  obtain ⟨q, e, w, hn, p⟩ := h.prepares
  obtain ⟨q0, e0, _⟩ := C29_direct_op q A.ham w (by rw [hn]; exact h.ready.ham)
  unfold buildOrbEnergies
  simp only
  rw [e, except_ok_bind, e0, except_ok_bind]
  simp only
  refine mapM_ok _ _ _ fun i hi => ?_
  have hi := List.mem_range.1 hi
  have hg := (pauliGate_X i).exact
  obtain ⟨q1, e1, w1, n1, p1⟩ := applyGate_exact (g := gX i) w (by rw [hn]; exact hi) (by rw [hn]; exact hi) hg
  obtain ⟨q2, e2, _⟩ := C29_direct_op q1 A.ham w1 (by rw [n1, hn]; exact h.ready.ham)
  rw [except_ok_bind, make_X, except_ok_bind, e1, except_ok_bind, e2, except_ok_bind]
  simp only [p1, p, op_gX, opX_single, n1, hn]
  rfl

/-- C95: the orbital energies.  Given Hartree-Fock energies of the spatial orbitals are used for both spins; otherwise each computed energy is, up to its sign, the difference of the
energies of the reference determinant and the determinant with one electron more or less; the sign is right for the orbitals `p` that are occupied if and only if `p` is below
the number of electrons, and wrong for all others. -/
theorem C95_orb_energies (A : PqeAlg) (k R : ℕ) (irr : List ℕ) (h : Setting A k R irr) (hf : List ℝ) :
    (∃ l, buildOrbEnergies none A (some hf) = .ok l ∧ l.length = 2 * hf.length ∧ ∀ i (hi : i < hf.length), l[2 * i]? = some (hf[i] : ℂ) ∧ l[2 * i + 1]? = some (hf[i] : ℂ)) ∧
    ∃ l, buildOrbEnergies none A none = .ok l ∧ l.length = 2 * k ∧ ∀ p, p < 2 * k →
      ((R.testBit p = true ↔ p < A.ref.sum) → l[p]? = some (koopmans A.nqb A.ham.op R p)) ∧
      (¬ (R.testBit p = true ↔ p < A.ref.sum) → l[p]? = some (-koopmans A.nqb A.ham.op R p)) := by
  constructor
  · refine ⟨_, rfl, ?_, ?_⟩
    · induction hf with
      | nil => rfl
      | cons a l ih => rw [List.flatMap_cons, List.length_append, ih]; simp; omega
    · induction hf with
      | nil => intro i hi; simp at hi
      | cons a l ih =>
        intro i hi
        rw [List.flatMap_cons]
        cases i with
        | zero => exact ⟨rfl, rfl⟩
        | succ i =>
          have := ih i (by simpa using hi)
          simp only [List.getElem_cons_succ]
          exact this
  · refine ⟨_, orbEnergies_ok h, by simp [h.size], fun p hp => ?_⟩
    have hp' : p < A.nqb := by rw [h.size]; exact hp
    rw [List.getElem?_map, List.getElem?_range hp']
    simp only [Option.map_some]
    unfold koopmans
    by_cases h1 : R.testBit p = true <;> by_cases h2 : p < A.ref.sum <;> simp [h1, h2]

/-- C95: if the electrons fill the lowest spin orbitals all computed energies are right. -/
theorem C95_orb_energies_partial (A : PqeAlg) (k R : ℕ) (irr : List ℕ) (h : Setting A k R irr) (hc : ∀ p, p < 2 * k → (R.testBit p = true ↔ p < A.ref.sum)) :
    buildOrbEnergies none A none = .ok ((List.range (2 * k)).map (koopmans A.nqb A.ham.op R)) := by
  rw [orbEnergies_ok h, h.size]
  congr 1
  apply List.map_congr_left
  intro p hp
  have := hc p (List.mem_range.1 hp)
  unfold koopmans
  by_cases h1 : R.testBit p = true
  · rw [if_pos (this.1 h1), if_pos h1]
  · rw [if_neg (fun h => h1 (this.2 h)), if_neg h1]

theorem detEnergy_eigen {n I : ℕ} (hI : I < 2 ^ n) {H : Op} {e : ℂ} (he : H (Pi.single I 1) = e • Pi.single I 1) : detEnergy n H I = e := by
  unfold detEnergy
  rw [he, inner_smul_right]
  have : inner n (Pi.single I 1) (Pi.single I 1) = 1 := by
    unfold inner
    rw [Finset.sum_eq_single I]
    · simp
    · intro J _ hJ; simp [Pi.single_eq_of_ne hJ]
    · intro h; exact absurd (Finset.mem_range.2 hI) h
  rw [this, mul_one]

/-- C95: for independent particles, `H|I⟩ = (c + Σ_{p in I} ε_p)|I⟩`, the orbital energies are the `ε_p`. -/
theorem C95_independent (n : ℕ) (H : Op) (c : ℂ) (ε : ℕ → ℂ) (hH : ∀ I < 2 ^ n, H (Pi.single I 1) = (c + ∑ p ∈ Finset.range n, if I.testBit p then ε p else 0) • (Pi.single I 1 : St))
    (R : ℕ) (hR : R < 2 ^ n) (p : ℕ) (hp : p < n) : koopmans n H R p = ε p := by
  have hF : flipBit R p < 2 ^ n := by
    unfold flipBit
    exact Nat.xor_lt_two_pow hR (Nat.pow_lt_pow_right (by norm_num) hp)
  have hsplit : ∀ I : ℕ, (∑ q ∈ Finset.range n, if I.testBit q then ε q else 0) = (if I.testBit p then ε p else 0) + ∑ q ∈ (Finset.range n).erase p, if I.testBit q then ε q else 0 :=
    fun I => (Finset.add_sum_erase _ _ (Finset.mem_range.2 hp)).symm
  have hrest : (∑ q ∈ (Finset.range n).erase p, if (flipBit R p).testBit q then ε q else 0) = ∑ q ∈ (Finset.range n).erase p, if R.testBit q then ε q else 0 := by
    refine Finset.sum_congr rfl fun q hq => ?_
    rw [testBit_flipBit]
    have : q ≠ p := (Finset.mem_erase.1 hq).1
    simp [this]
  have hbit : (flipBit R p).testBit p = !R.testBit p := by rw [testBit_flipBit]; simp
  unfold koopmans
  rw [detEnergy_eigen hR (hH R hR), detEnergy_eigen hF (hH _ hF), hsplit R, hsplit (flipBit R p), hrest, hbit]
  cases R.testBit p <;> simp

/-- C95: the space consists of determinants of the totally symmetric irrep whatever the irrep of the reference: if the reference is of another irrep, no determinant that a
symmetric Hamiltonian and ansatz can reach is in it. -/
theorem C95_wrong_irrep (k R : ℕ) (irr : List ℕ) (r : ℤ) (hI : irrepOf irr (holes (2 * k) R 0) ≠ 0) :
    ∀ I ∈ targets k R irr 0 (some r), irrepOf irr (holes (2 * k) R I ++ holes (2 * k) I R) ≠ 0 := by
  intro I hm
  have := (((Spqe.C86_complete k R irr 0 (some r)).1 I).1 hm).2.2.2.1
  rw [Spqe.irrepOf_excitation, this]
  simpa using hI

/-- C95: two electrons of opposite spin in two orbitals of different symmetry: the space is that of the determinants of the other irrep. -/
theorem C95_wrong_irrep_example : irrepOf [0, 1] (holes 4 9 0) = 1 ∧ targets 2 9 [0, 1] 0 (some 2) = [3, 12] ∧ targets 2 9 [0, 1] 1 (some 2) = [6] := by
  have dec : ∀ s, targets 2 9 [0, 1] s (some 2) = (List.range (2 ^ 4)).filter fun I =>
      decide (I ≠ 9) && decide (spinNum 0 2 9 = spinNum 0 2 I) && decide (spinNum 1 2 9 = spinNum 1 2 I) && decide (irrepOf [0, 1] (holes 4 I 0) = s) && decide ((holes 4 9 I).length ≤ 2) := by
    classical
    intro s
    unfold targets
    apply List.filter_congr
    intro I _
    rw [Bool.eq_iff_iff, decide_eq_true_iff]
    unfold Target SameSpin
    simp [and_assoc]
  rw [dec, dec]; decide

theorem hop_setting : Setting hopSpqe 2 1 [0, 0] := by
  have := Spqe.hop_input 0
  exact ⟨this.size, this.pos, this.small, this.occ, this.len, this.isRef, this.prep, rfl, this.irreps, this.ready, this.fresh, this.steps, this.ham⟩

theorem hop_rank : targets 2 1 [0, 0] 0 (some 1) = [4] := by
  have dec : targets 2 1 [0, 0] 0 (some 1) = (List.range (2 ^ 4)).filter fun I =>
      decide (I ≠ 1) && decide (spinNum 0 2 1 = spinNum 0 2 I) && decide (spinNum 1 2 1 = spinNum 1 2 I) && decide (irrepOf [0, 0] (holes 4 I 0) = 0) && decide ((holes 4 1 I).length ≤ 1) := by
    classical
    unfold targets
    apply List.filter_congr
    intro I _
    rw [Bool.eq_iff_iff, decide_eq_true_iff]
    unfold Target SameSpin
    simp [and_assoc]
  rw [dec]; decide

/-- the Hamiltonian `Z₀` with one electron in the third spin orbital -/
noncomputable def gapAlg : PqeAlg where
  nqb := 4
  uprep := [gX 2]
  ham := [(1, [gZ 0])]
  pool := []
  tops := []
  tamps := []
  ref := [0, 0, 1, 0]
  refprep := [gX 2]

theorem gap_ham : ∀ t ∈ gapAlg.ham, t.1.im = 0 ∧ t.2.PauliString 4 := by
  intro t ht
  simp only [gapAlg, List.mem_cons, List.not_mem_nil, or_false] at ht
  subst ht
  refine ⟨by simp, ?_, by simp [gZ], ?_⟩
  · intro g hg
    simp only [List.mem_cons, List.not_mem_nil, or_false] at hg
    subst hg; exact pauliGate_Z _
  · intro g hg
    simp only [List.mem_cons, List.not_mem_nil, or_false] at hg
    subst hg; simp [gZ]

theorem gap_setting : Setting gapAlg 2 4 [0, 0] := by
  refine ⟨rfl, by norm_num, by norm_num, by unfold Occ; simp [gapAlg], rfl, ?_, ?_, rfl, by simp, ⟨Computer.WF.init 4, rfl, ⟨?_, ?_⟩, ?_⟩, rfl, by simp [gapAlg], gap_ham⟩
  · intro i
    rcases i with _ | _ | _ | _ | i
    · rfl
    · rfl
    · rfl
    · rfl
    · rw [Nat.testBit_lt_two_pow (lt_of_lt_of_le (by norm_num : 4 < 2 ^ 4) (Nat.pow_le_pow_right (by norm_num) (by omega)))]
      simp [gapAlg]
  · obtain ⟨C, e, rfl⟩ := refprep_eq gapAlg.ref
    rw [e]; rfl
  · intro g hg
    simp only [gapAlg, List.mem_cons, List.not_mem_nil, or_false] at hg
    subst hg; simp [gX, gapAlg]
  · intro g hg
    simp only [gapAlg, List.mem_cons, List.not_mem_nil, or_false] at hg
    subst hg; exact (pauliGate_X _).exact
  · intro t ht
    have := (gap_ham t ht).2
    exact ⟨this.fits, fun g hg => (this.gates g hg).exact⟩

/-- C95: the computed orbital energies are wrong for some references: for `H = Z₀ = 1 - 2 n₀` and one electron in spin orbital 2, the energy of the orbital 0 is -2, the
function computes +2. -/
theorem C95_orb_energies_wrong : koopmans gapAlg.nqb gapAlg.ham.op 4 0 = -2 ∧ ∃ l, buildOrbEnergies none gapAlg none = .ok l ∧ l[0]? = some 2 := by
  have hH : gapAlg.ham.op = opZ 0 := by simp [gapAlg, QubitOperator.op, Circuit.op]
  have e1 : detEnergy 4 (opZ 0) 4 = 1 := detEnergy_eigen (by norm_num) (by
    rw [opZ_single]; norm_num [Nat.testBit])
  have e2 : detEnergy 4 (opZ 0) 5 = -1 := detEnergy_eigen (by norm_num) (by
    rw [opZ_single]; norm_num [Nat.testBit])
  have hk : koopmans gapAlg.nqb gapAlg.ham.op 4 0 = -2 := by
    unfold koopmans
    rw [hH, show flipBit 4 0 = 5 from rfl, show gapAlg.nqb = 4 from rfl, e1, e2, if_neg (by decide)]
    norm_num
  refine ⟨hk, ?_⟩
  obtain ⟨l, h1, _, h3⟩ := (C95_orb_energies gapAlg 2 4 [0, 0] gap_setting []).2
  refine ⟨l, h1, ?_⟩
  rw [(h3 0 (by norm_num)).2 (by simp [gapAlg, Nat.testBit]), hk, neg_neg]

/-- C95: a space with one determinant, and the limit of the corrected energies: the hypotheses of `C95_space`, `C95_energies` and `C95_limit` can be met and the corrections are not zero. -/
theorem C95_example (o : DescSort) (so : SortOracle) : Setting hopSpqe 2 1 [0, 0] ∧
    ∃ S en, constructSpace o none hopSpqe [0, 0] [-1, -1, 1, 1] 1 = .ok (S, en) ∧ S.indices = [4] ∧ S.mpdenom = [-2] ∧
      ∃ f : ℝ → ℝ, (∀ dt ≠ 0, ∃ y, momentEnergies o so hopSpqe S en (-1) (some dt) = .ok (some (f dt), y)) ∧ Tendsto f (𝓝[≠] 0) (𝓝 (-1 - 1 / 2)) := by
  refine ⟨hop_setting, ?_⟩
  obtain ⟨S, en, s1, s2, s3, s4, s5⟩ := (C95_space o hopSpqe 2 1 [0, 0] hop_setting [-1, -1, 1, 1] (by simp) 1).2 (by norm_num) (.inr (by norm_num))
  rw [hop_rank] at s2
  have hd : ((holes (2 * 2) 1 4).map fun p => ([-1, -1, 1, 1] : List ℂ).getD p 0).sum - ((holes (2 * 2) 4 1).map fun p => ([-1, -1, 1, 1] : List ℂ).getD p 0).sum = -2 := by
    rw [show holes (2 * 2) 1 4 = [0] by decide, show holes (2 * 2) 4 1 = [2] by decide]
    norm_num
  refine ⟨S, en, s1, s2, by rw [s4, s2, List.map_singleton, hd], ?_⟩
  obtain ⟨U, hU, hop, hX, hF⟩ := C70_exact o so hopSpqe.toUccAlg [] (by unfold UccAlg.Selects; exact List.Forall₂.nil) rfl rfl (by simp [hopSpqe]) [] (by simp) [] List.Forall₂.nil
  have hop1 : U.op = 1 := by rw [hop]; simp [uccOp, applyInOrder]
  have hp : ∀ dt : ℝ, ∃ p : Circuit × ℂ, trotterize hopSpqe.ham ((dt : ℂ) * Complex.I) hopSpqe.trotterNumber = .ok p := fun dt => by
    obtain ⟨C, ph, h, _⟩ := hop_setting.propagator dt
    exact ⟨(C, ph), h⟩
  choose K hK using hp
  obtain ⟨f, f1, f2⟩ := C95_limit hopSpqe 2 1 [0, 0] hop_setting U hF hX [4] (by simp [hopSpqe])
    (fun I => ((holes (2 * 2) 1 I).map fun p => ([-1, -1, 1, 1] : List ℂ).getD p 0).sum - ((holes (2 * 2) I 1).map fun p => ([-1, -1, 1, 1] : List ℂ).getD p 0).sum)
    (by intro I hI; rw [List.mem_singleton] at hI; subst hI; rw [hd]; norm_num) (-1) (fun dt => (K dt).1) (fun dt => (K dt).2) hK
  refine ⟨f, fun dt h0 => ?_, ?_⟩
  · obtain ⟨_, K', ph', k1, _, k3⟩ := C95_energies o so hopSpqe 2 1 [0, 0] hop_setting [-1, -1, 1, 1] (by simp) 1 (.inr (by norm_num)) S en s1 U hU hF hX (-1) (some dt) dt rfl
    rw [hK dt] at k1
    obtain ⟨rfl, rfl⟩ := Prod.mk.inj (Except.ok.inj k1)
    have k4 := k3 h0
    rw [hop_rank, f1 dt] at k4
    exact ⟨_, k4⟩
  · convert f2 using 2
    rw [List.map_singleton, List.sum_singleton, hd, hop1]
    have := Spqe.hop_residual
    unfold detResidual at this
    rw [show hopSpqe.nqb = 4 from rfl, this]
    norm_num

end Moments
end QF
