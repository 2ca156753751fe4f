import Verif.Props.Moments

/-!
C95: the determinants, the denominators and the moment corrections.
-/
namespace QF

open SQOperator (DescSort)
open QubitOperator (SortOracle)
open SQOpPool Filter Topology

namespace Moments
open Spqe (Target targets poolOf Sound estimate detResidual)

/-- the objects the moment code works with: an occupation-list reference on `2k ≤ 64` spin orbitals, its preparation circuit, a Hamiltonian of Pauli strings
with real coefficients, no user-supplied initial state -/
structure Setting (A : PqeAlg) (k R : ℕ) (irr : List ℕ) : Prop where
  size : A.nqb = 2 * k
  pos : 0 < k
  small : k ≤ 32
  occ : Occ A.ref
  len : A.ref.length = 2 * k
  isRef : IsRefDet A.ref R
  prep : buildRefprep A.ref = .ok A.refprep
  start : A.uprep = A.refprep
  irreps : k ≤ irr.length
  ready : A.Ready
  fresh : A.computer = none
  steps : 1 ≤ A.trotterNumber
  ham : ∀ t ∈ A.ham, t.1.im = 0 ∧ t.2.PauliString A.nqb

/-- the energy `⟨I|H|I⟩` of a determinant -/
noncomputable def detEnergy (n : ℕ) (H : Op) (I : ℕ) : ℂ := inner n (Pi.single I 1) (H (Pi.single I 1))

variable {A : PqeAlg} {k R : ℕ} {irr : List ℕ}

theorem Setting.refLt (h : Setting A k R irr) : R < 2 ^ (2 * k) := by rw [← h.len]; exact Spqe.isRefDet_lt h.isRef

/-- the reference determinant is prepared -/
theorem Setting.prepares (h : Setting A k R irr) : ∃ q, (Computer.init A.nqb).applyCircuit A.refprep = .ok q ∧ q.WF ∧ q.nqubit = A.nqb ∧ q.psi = Pi.single R 1 := by
  obtain ⟨C, idx, q, c1, c2, c3, c4, c5, c6, c7⟩ := C43_prepares A.ref h.occ (List.ne_nil_of_length_pos (by rw [h.len]; have := h.pos; omega)) A.nqb (by rw [h.len, h.size])
  rw [h.prep] at c1; cases c1
  have hidx : idx = R := Nat.eq_of_testBit_eq fun i => by rw [c7, h.isRef]
  subst hidx
  exact ⟨q, c3, (applyAll_step _ (fun _ _ _ hq h => applyGate_step hq h) A.refprep _ _ (Computer.WF.init A.nqb) c3).wf (Computer.WF.init A.nqb), c4, c5⟩

theorem Setting.reference (h : Setting A k R irr) : A.reference = Pi.single R 1 := by
  obtain ⟨q, e, _, _, p⟩ := h.prepares
  have e0 : A.initialComputer = Computer.init A.nqb := by unfold UccAlg.initialComputer; rw [h.fresh]; rfl
  obtain ⟨q1, e1, w1, n1, p1⟩ := applyCircuit_exact (q := Computer.init A.nqb) A.uprep (Computer.WF.init _) h.ready.prep.1 h.ready.prep.2
  rw [h.start, e] at e1; cases e1
  rw [UccAlg.reference, e0, ← p1, p]

theorem foldSpace (f : Space → ℕ → Except Exc Space) (pe : ℕ → ℂ × SQOperator) (d : ℕ → ℂ) (Q : ℕ → Bool) (l : List ℕ)
    (hf : ∀ S, ∀ I ∈ l, f S I = .ok (if Q I then { pool := S.pool ++ [pe I], mpdenom := S.mpdenom ++ [d I], indices := S.indices ++ [I] } else S)) :
    ∀ S : Space, l.foldlM f S = .ok { pool := S.pool ++ (l.filter Q).map pe, mpdenom := S.mpdenom ++ (l.filter Q).map d, indices := S.indices ++ l.filter Q } := by
  induction l with
  | nil => intro S; simp; rfl
  | cons I l ih =>
    intro S
    rw [List.foldlM_cons, hf S I (by simp), except_ok_bind, ih (fun P J hJ => hf P J (by simp [hJ]))]
    cases hq : Q I
    · simp [hq]
    · simp [hq, List.append_assoc]

theorem inner_unit {n : ℕ} {s : ℂ} (hs : s = 1 ∨ s = -1) (φ : St) (H : Op) : inner n (s • φ) (H (s • φ)) = inner n φ (H φ) := by
  rw [map_smul, inner_smul_right, Spqe.inner_smul_left_real hs, ← mul_assoc]
  have : s * s = 1 := by rcases hs with e | e <;> rw [e] <;> norm_num
  rw [this, one_mul]

/-- the Epstein-Nesbet energy of a determinant is `⟨I|H|I⟩` -/
theorem epsteinNesbet_ok (o : DescSort) (h : Setting A k R irr) {I : ℕ} (hI : I < 2 ^ (2 * k)) (hne : I ≠ R) (hs : SameSpin k R I) (h19 : (holes (2 * k) R I).length ≤ 19) :
    epsteinNesbet o none A (excTerms (holes (2 * k) I R) (holes (2 * k) R I)) = .ok (detEnergy A.nqb A.ham.op I) := by
  obtain ⟨q, e, w, hn, p⟩ := h.prepares
  obtain ⟨he, hpos⟩ := Spqe.target_excit h.refLt hI hs hne
  obtain ⟨s, hs1, hk⟩ := Spqe.C86_excites A.qubitExc k R [] (irrepOf [] (holes (2 * k) I 0)) none h.refLt I
    (((Spqe.C86_complete k R [] _ none).1 _).2 ⟨hI, hne, hs, rfl, fun r e => by simp at e⟩)
  obtain ⟨Vs, hV⟩ := flows_exist A.qubitExc [(holes (2 * k) I R, holes (2 * k) R I)]
  cases hV with
  | @cons _ V _ _ hV _ =>
  obtain ⟨Q, e1', hQ⟩ := gradOp_exists o he (by rw [he.rank]; exact h19) A.qubitExc hV
  obtain ⟨q2, e2', w2, n2, p2⟩ := C24_apply_operator q Q w (by rw [hn, h.size]; exact hQ.exact)
  obtain ⟨q3, e3, _⟩ := C29_direct_op q2 A.ham w2 (by rw [n2, hn]; exact h.ready.ham)
  unfold epsteinNesbet
  rw [e, except_ok_bind, e1', except_ok_bind]
  simp only
  rw [e2', except_ok_bind, e3, except_ok_bind]
  show Except.ok _ = _
  rw [p2, hQ.op, p, hk, inner_unit hs1, n2, hn]; rfl

/-- C95: the moment space.  It consists, in increasing order, of the determinants with the numbers of alpha and beta electrons of the reference, of the totally symmetric
irrep, with at most `max_moment_rank` electrons moved.  The Moller-Plesset denominator is the sum of the orbital energies of the holes minus that of the particles, the
Epstein-Nesbet energy is `⟨I|H|I⟩`.  A negative rank raises `TypeError`. -/
theorem C95_space (o : DescSort) (A : PqeAlg) (k R : ℕ) (irr : List ℕ) (h : Setting A k R irr) (orbE : List ℂ) (hE : 2 * k ≤ orbE.length) (r : ℤ) :
    (r < 0 → constructSpace o none A irr orbE r = .error .typeError) ∧
    (0 ≤ r → ((A.ref.filter (· ≠ 0)).length ≤ 19 ∨ r ≤ 19) → ∃ S en, constructSpace o none A irr orbE r = .ok (S, en) ∧
      S.indices = targets k R irr 0 (some r) ∧ S.pool = poolOf k R S.indices ∧
      S.mpdenom = S.indices.map (fun I => ((holes (2 * k) R I).map fun p => orbE.getD p 0).sum - ((holes (2 * k) I R).map fun p => orbE.getD p 0).sum) ∧
      en = S.indices.map fun I => inner A.nqb (Pi.single I 1) (A.ham.op (Pi.single I 1))) := by
  classical
  constructor
  · intro hr; unfold constructSpace momentRank; rw [if_pos hr]; rfl
  intro hr h19
  have hmax : ∀ I, (holes (2 * k) R I).length ≤ min r.toNat (Spqe.spinCount 0 A.ref + Spqe.spinCount 1 A.ref) ↔ ∀ r', some r = some r' → ((holes (2 * k) R I).length : ℤ) ≤ r' := by
    intro I
    have := Spqe.holes_le k R I
    rw [← Spqe.spinCount_eq h.occ h.len h.isRef (show 0 < 2 by omega), ← Spqe.spinCount_eq h.occ h.len h.isRef (show 1 < 2 by omega)] at this
    constructor
    · intro h r' e; cases e; omega
    · intro h; have := h r rfl; omega
  refine ⟨{ pool := poolOf k R (targets k R irr 0 (some r)), mpdenom := (targets k R irr 0 (some r)).map fun I => mpDenom orbE (holes (2 * k) R I) (holes (2 * k) I R), indices := targets k R irr 0 (some r) }, _, ?_, rfl, rfl, rfl, rfl⟩
  unfold constructSpace momentRank
  rw [if_neg (by omega), except_ok_bind, h.size, Nat.one_shiftLeft,
    foldSpace _ (Spqe.opOf k R) (fun I => mpDenom orbE (holes (2 * k) R I) (holes (2 * k) I R)) (fun I => decide (Target k R irr 0 (some r) I))]
  · rw [except_ok_bind]
    have hp : ([] : List (ℂ × SQOperator)) ++ ((List.range (2 ^ (2 * k))).filter fun I => decide (Target k R irr 0 (some r) I)).map (Spqe.opOf k R) = (targets k R irr 0 (some r)).map (Spqe.opOf k R) := by
      simp [targets]
    simp only [hp, List.mapM_map]
    rw [mapM_ok _ (fun I => detEnergy A.nqb A.ham.op I)]
    · rw [except_ok_bind, h.size]
      simp only [List.nil_append, detEnergy]
      rfl
    · intro I hI
      obtain ⟨t1, t2, t3, _, t5⟩ := ((Spqe.C86_complete k R irr 0 (some r)).1 I).1 hI
      refine epsteinNesbet_ok o h t1 t2 t3 ?_
      rcases h19 with h | h
      · exact (Spqe.holes_filter_le ‹Setting A k R irr›.len ‹Setting A k R irr›.isRef I).trans h
      · have := t5 r rfl; omega
  · intro S I hI
    rw [momentStep_spec o h.occ h.len h.small h.irreps orbE hE _ h.isRef (List.mem_range.1 hI)]
    congr 1
    by_cases ht : Target k R irr 0 (some r) I
    · rw [if_pos ⟨ht.1, ht.2.1, ht.2.2.1, (hmax I).2 ht.2.2.2⟩, if_pos (by simpa using ht)]; rfl
    · rw [if_neg (fun h' => ht ⟨h'.1, h'.2.1, h'.2.2.1, (hmax I).1 h'.2.2.2⟩), if_neg (by simpa using ht)]

end Moments
end QF
