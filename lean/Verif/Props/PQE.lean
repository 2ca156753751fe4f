import Verif.Model.PQE
import Verif.Lemmas.KappaDet
import Verif.Props.UccGradient3
import Verif.Props.StatePrep
import Verif.Props.Basis
import Verif.Props.MatrixElement
import Verif.Lemmas.RealOp

/-!
C73: the residuals of the projective quantum eigensolver.
-/
namespace QF

open SQOperator (DescSort jwTransform)
open QubitOperator (SortOracle)

/-! ### determinants -/

theorem foldSet_bit (l : List ℕ) : ∀ (k : ℕ) (d : QubitBasis), k + l.length ≤ 64 → ∀ q < 64,
    ((l.zipIdx k).foldl (fun (d : QubitBasis) p => d.setBit p.2 (p.1 ≠ 0)) d).getBit q =
      if k ≤ q ∧ q < k + l.length then decide (l.getD (q - k) 0 ≠ 0) else d.getBit q := by
  induction l with
  | nil => intro k d _ q _; simp; omega
  | cons x l ih =>
    intro k d hk q hq
    rw [List.length_cons] at hk
    rw [List.zipIdx_cons, List.foldl_cons, ih (k + 1) _ (by omega) q hq, (QubitBasis.C01_laws (n := 0) d (p := k) (by omega) hq _).1]
    by_cases h1 : q = k
    · subst h1
      rw [if_neg (by omega), if_pos rfl, if_pos (by simp)]
      simp
    · by_cases h2 : k + 1 ≤ q ∧ q < k + 1 + l.length
      · rw [if_pos h2, if_pos (by simp; omega)]
        obtain ⟨m, rfl⟩ : ∃ m, q = k + 1 + m := ⟨q - (k + 1), by omega⟩
        simp only [show k + 1 + m - k = m + 1 by omega, show k + 1 + m - (k + 1) = m by omega, List.getD_cons_succ]
      · rw [if_neg h2, if_neg h1, if_neg (by simp; omega)]

theorem setBits_ok (v : Bool) {l : List ℕ} (hn : l.Nodup) (h64 : ∀ p ∈ l, p < 64) (d : QubitBasis) (hd : ∀ p ∈ l, d.getBit p = !v) :
    ∃ d', PqeAlg.setBits v l d = .ok d' ∧ ∀ q < 64, d'.getBit q = if q ∈ l then v else d.getBit q := by
  have key : ∀ (l : List ℕ) (d : QubitBasis), l.Nodup → (∀ p ∈ l, p < 64) → (∀ p ∈ l, d.getBit p = !v) →
      ∃ d', l.foldlM (fun d p => if 64 ≤ p then .error .undefinedBehaviour else
        if d.getBit p = v then .error .valueError else pure (d.setBit p v)) d = (.ok d' : Except Exc QubitBasis) ∧
        ∀ q < 64, d'.getBit q = if q ∈ l then v else d.getBit q := by
    intro l
    induction l with
    | nil => intro d _ _ _; exact ⟨d, rfl, by simp⟩
    | cons p l ih =>
      intro d hn h64 hd
      rw [List.nodup_cons] at hn
      have hp := h64 p (by simp)
      have hlaw := fun q (hq : q < 64) => (QubitBasis.C01_laws (n := 0) d hp hq v).1
      obtain ⟨d', e, hb⟩ := ih (d.setBit p v) hn.2 (fun q hq => h64 q (by simp [hq])) (fun q hq => by
        rw [hlaw q (h64 q (by simp [hq])), if_neg (fun e : q = p => hn.1 (e ▸ hq))]
        exact hd q (by simp [hq]))
      refine ⟨d', ?_, ?_⟩
      · rw [List.foldlM_cons, if_neg (by omega), if_neg (by rw [hd p (by simp)]; cases v <;> simp)]
        exact e
      · intro q hq
        rw [hb q hq, hlaw q hq]
        by_cases h1 : q ∈ l
        · simp [h1]
        · by_cases h2 : q = p <;> simp [h1, h2]
  obtain ⟨d', e, h⟩ := key l.reverse d (List.nodup_reverse.2 hn) (by simpa using h64) (by simpa using hd)
  exact ⟨d', e, by simpa using h⟩

/-- `c a` excites the reference: `a` are occupied and `c` empty orbitals of `ref` -/
structure ParticleHole (ref : List ℕ) (c a : List ℕ) : Prop where
  occ : ∀ p ∈ a, ref[p]? = some 1
  vir : ∀ p ∈ c, ref[p]? = some 0
  ne : c ≠ []

theorem getBit_index_ext {d : QubitBasis} {J : ℕ} (hJ : J < 2 ^ 64) (h : ∀ q < 64, d.getBit q = J.testBit q) : d.index = J := by
  apply Nat.eq_of_testBit_eq
  intro i
  by_cases hi : i < 64
  · rw [← QubitBasis.C01_get_bit d hi, h i hi]
  · have hp : 2 ^ 64 ≤ 2 ^ i := Nat.pow_le_pow_right (by norm_num) (by omega)
    have h1 : d.index < 2 ^ 64 := d.state.isLt
    rw [Nat.testBit_lt_two_pow (lt_of_lt_of_le h1 hp), Nat.testBit_lt_two_pow (lt_of_lt_of_le hJ hp)]

theorem excitedDet_ok {ref c a : List ℕ} (hO : Occ ref) (h64 : ref.length ≤ 64) (hph : ParticleHole ref c a) (hd : (c ++ a).Nodup) {R : ℕ}
    (hR : ∀ i, R.testBit i = decide (ref.getD i 0 = 1)) :
    ∃ d, PqeAlg.excitedDet ref.length ref c a = .ok d ∧ d.index = flipAll (c ++ a) R ∧ d.index < 2 ^ ref.length := by
  have hlt : ∀ p ∈ c ++ a, p < ref.length := by
    intro p hp
    rcases List.mem_append.1 hp with hp | hp
    · exact (List.getElem?_eq_some_iff.1 (hph.vir p hp)).1
    · exact (List.getElem?_eq_some_iff.1 (hph.occ p hp)).1
  let d0 := ref.zipIdx.foldl (fun (d : QubitBasis) p => d.setBit p.2 (p.1 ≠ 0)) (QubitBasis.ofNat ref.length)
  have h0 : ∀ q < 64, d0.getBit q = R.testBit q := by
    intro q hq
    rw [foldSet_bit ref 0 _ (by omega) q hq, hR]
    by_cases hr : q < ref.length
    · rw [if_pos (by omega), Nat.sub_zero]
      have := hO (ref.getD q 0) (by rw [List.getD_eq_getElem _ _ hr]; exact List.getElem_mem hr)
      rcases this with e | e <;> rw [e] <;> decide
    · rw [if_neg (by omega), QubitBasis.C01_get_bit _ hq, QubitBasis.C01_index_ofNat (lt_of_le_of_lt h64 (by norm_num)), List.getD_eq_default _ _ (by omega)]
      rw [Nat.testBit_lt_two_pow (lt_of_lt_of_le (Nat.lt_two_pow_self) (Nat.pow_le_pow_right (by norm_num) (by omega : ref.length ≤ q)))]
      simp
  rw [List.nodup_append] at hd
  obtain ⟨d1, e1, h1⟩ := setBits_ok false hd.2.1 (fun p hp => lt_of_lt_of_le (hlt p (by simp [hp])) h64) d0 (by
    intro p hp
    rw [h0 p (lt_of_lt_of_le (hlt p (by simp [hp])) h64), hR]
    have := hph.occ p hp
    simp [List.getD_eq_getElem?_getD, this])
  obtain ⟨d2, e2, h2⟩ := setBits_ok true hd.1 (fun p hp => lt_of_lt_of_le (hlt p (by simp [hp])) h64) d1 (by
    intro p hp
    have hpa : p ∉ a := fun h => hd.2.2 p hp p h rfl
    rw [h1 p (lt_of_lt_of_le (hlt p (by simp [hp])) h64), if_neg hpa, h0 p (lt_of_lt_of_le (hlt p (by simp [hp])) h64), hR]
    have := hph.vir p hp
    simp [List.getD_eq_getElem?_getD, this])
  have hnd : (c ++ a).Nodup := List.nodup_append.2 hd
  have hJ : flipAll (c ++ a) R < 2 ^ ref.length := by
    apply Nat.lt_pow_two_of_testBit
    intro i hi
    rw [testBit_flipAll hnd, hR, List.getD_eq_default _ _ hi]
    have : i ∉ c ++ a := fun h => by have := hlt i h; omega
    simp [this]
  have hidx : d2.index = flipAll (c ++ a) R := by
    refine getBit_index_ext (lt_of_lt_of_le hJ (Nat.pow_le_pow_right (by norm_num) h64)) fun q hq => ?_
    rw [h2 q hq, h1 q hq, h0 q hq, testBit_flipAll hnd]
    by_cases hc : q ∈ c
    · have := hph.vir q hc
      have hb : R.testBit q = false := by rw [hR]; simp [List.getD_eq_getElem?_getD, this]
      simp [hc, hb]
    · by_cases ha : q ∈ a
      · have := hph.occ q ha
        have hb : R.testBit q = true := by rw [hR]; simp [List.getD_eq_getElem?_getD, this]
        simp [hc, ha, hb]
      · simp [hc, ha]
  refine ⟨d2, ?_, hidx, hidx ▸ hJ⟩
  unfold PqeAlg.excitedDet
  simp only
  rw [e1, except_ok_bind, e2]

theorem exciteLists_ok {n : ℕ} {ref c a : List ℕ} (h : Excit n c a) (hph : ParticleHole ref c a) : PqeAlg.exciteLists ref (excTerms c a) = .ok (c, a) := by
  have hna : a ≠ [] := by rintro rfl; exact hph.ne (List.length_eq_zero_iff.1 (by simpa using h.rank))
  have hcase : excTerms c a = [(-1, a, c), (1, c, a)] ∨ excTerms c a = [(1, c, a), (-1, a, c)] := by
    unfold excTerms; split <;> simp
  unfold PqeAlg.exciteLists
  rcases hcase with e | e <;> rw [e, pyIndex_ok (rfl : _ = some _), except_ok_bind] <;> simp only
  · rw [List.getLast?_eq_some_getLast hph.ne]
    simp only
    rw [pyIndex_ok (hph.vir _ (List.getLast_mem hph.ne)), except_ok_bind]
    simp [pure, Except.pure]
  · rw [List.getLast?_eq_some_getLast hna]
    simp only
    rw [pyIndex_ok (hph.occ _ (List.getLast_mem hna)), except_ok_bind]
    simp [pure, Except.pure]


/-! ### the residuals -/

/-- the pool of a PQE run: excitations of the reference, which occupies some of the at most 64 qubits; `refprep` prepares it -/
structure PqeAlg.Pool (A : PqeAlg) (ys : List (List ℕ × List ℕ)) : Prop where
  occ : Occ A.ref
  ne : A.ref ≠ []
  size : A.ref.length = A.nqb
  small : A.nqb ≤ 64
  prep : buildRefprep A.ref = .ok A.refprep
  exc : List.Forall₂ (fun e (x : List ℕ × List ℕ) => e.2 = excTerms x.1 x.2 ∧ Excit A.nqb x.1 x.2 ∧ x.1.length ≤ 19 ∧ ParticleHole A.ref x.1 x.2) A.pool ys

/-- the determinant that `ref` occupies: orbital `i` is occupied if `ref[i] = 1` -/
def IsRefDet (ref : List ℕ) (R : ℕ) : Prop := ∀ i, R.testBit i = decide (ref.getD i 0 = 1)

/-- `d = (I, s)` describes the determinant that the excitation `x` makes from the determinant `R`: `κ |R⟩ = s |I⟩` with `s = ±1` -/
def Excites (n : ℕ) (q : Bool) (R : ℕ) (x : List ℕ × List ℕ) (d : ℕ × ℂ) : Prop :=
  (d.2 = 1 ∨ d.2 = -1) ∧ d.1 < 2 ^ n ∧ d.1 = flipAll (x.1 ++ x.2) R ∧ kappa q x.1 x.2 (Pi.single R 1) = d.2 • (Pi.single d.1 1 : St)

theorem excitedDetOf_ok (o : DescSort) {A : PqeAlg} {ys : List (List ℕ × List ℕ)} (hP : A.Pool ys) {R : ℕ} (hR : IsRefDet A.ref R)
    {e : ℂ × SQOperator} {x : List ℕ × List ℕ} (he : e.2 = excTerms x.1 x.2) (hx : Excit A.nqb x.1 x.2) (hr : x.1.length ≤ 19)
    (hph : ParticleHole A.ref x.1 x.2) : ∃ d, A.excitedDetOf o e = .ok d ∧ Excites A.nqb A.qubitExc R x d := by
  have hnd : (x.1 ++ x.2).Nodup := List.nodup_append.2 ⟨hx.desc_c.imp (fun h => (ne_of_lt h).symm), hx.desc_a.imp (fun h => (ne_of_lt h).symm),
    fun p hp q hq hpq => by subst hpq; have := hph.vir p hp; rw [hph.occ p hq] at this; simp at this⟩
  have hna : x.2 ≠ [] := by intro h; exact hph.ne (List.length_eq_zero_iff.1 (by have := hx.rank; rw [h] at this; simpa using this))
  obtain ⟨d, d1, d2, d3⟩ := excitedDet_ok hP.occ (by rw [hP.size]; exact hP.small) hph hnd hR
  rw [hP.size] at d1 d3
  obtain ⟨C, idx, q, c1, c2, c3, c4, c5, c6, c7⟩ := C43_prepares A.ref hP.occ hP.ne A.nqb (by rw [hP.size])
  rw [hP.prep] at c1; cases c1
  have hidx : idx = R := Nat.eq_of_testBit_eq fun i => by rw [c7, hR]
  subst hidx
  obtain ⟨Vs, hV⟩ := flows_exist A.qubitExc [x]
  cases hV with
  | @cons _ V _ _ hV _ =>
  obtain ⟨Q, e1, hQ⟩ := gradOp_exists o hx hr A.qubitExc hV
  have hwf : q.WF := (applyAll_step _ (fun _ _ _ hq h => applyGate_step hq h) A.refprep _ _ (Computer.WF.init A.nqb) c3).wf (Computer.WF.init A.nqb)
  obtain ⟨q2, e2, w2, n2, p2⟩ := C24_apply_operator q Q hwf (by rw [c4]; exact hQ.exact)
  obtain ⟨s, hs, hk⟩ := kappa_det A.qubitExc hnd hna (R := idx) (fun p hp => by rw [hR]; have := hph.occ p hp; simp [List.getD_eq_getElem?_getD, this])
    (fun p hp => by rw [hR]; have := hph.vir p hp; simp [List.getD_eq_getElem?_getD, this])
  have hlen : d.index < q2.coeff.length := by rw [w2.len, n2, c4]; exact d3
  have hval : q2.coeff[d.index] = s := by
    have : q2.psi d.index = s := by
      rw [p2, hQ.op, c5, hk, d2]; simp
    rw [← this]; simp only [Computer.psi, vec, List.getD_eq_getElem _ _ hlen]
  refine ⟨(d.index, s), ?_, hs, d3, d2, by rw [hk, d2]⟩
  unfold PqeAlg.excitedDetOf
  rw [he, exciteLists_ok hx hph, except_ok_bind]
  simp only
  rw [d1, except_ok_bind, c3, except_ok_bind, e1, except_ok_bind]
  simp only
  rw [e2, except_ok_bind, pyIndex_ok (List.getElem?_eq_getElem hlen), except_ok_bind, hval]
  rfl

/-- C73: `fill_excited_dets` finds, for every pool operator, the determinant `I` and the sign `s` with `κ|Φ₀⟩ = s|I⟩`. -/
theorem C73_excited_dets (o : DescSort) (A : PqeAlg) (ys : List (List ℕ × List ℕ)) (hP : A.Pool ys) (R : ℕ) (hR : IsRefDet A.ref R) :
    ∃ dets, A.fillExcitedDets o = .ok dets ∧ List.Forall₂ (Excites A.nqb A.qubitExc R) ys dets := by
  have hP' := hP.exc
  have key : ∀ (l : List (ℂ × SQOperator)) (zs : List (List ℕ × List ℕ)),
      List.Forall₂ (fun e (x : List ℕ × List ℕ) => e.2 = excTerms x.1 x.2 ∧ Excit A.nqb x.1 x.2 ∧ x.1.length ≤ 19 ∧ ParticleHole A.ref x.1 x.2) l zs →
      ∃ dets, l.mapM (A.excitedDetOf o) = .ok dets ∧ List.Forall₂ (Excites A.nqb A.qubitExc R) zs dets := by
   intro l zs h
   induction h with
   | nil => exact ⟨[], rfl, .nil⟩
   | cons hx _ ih =>
    obtain ⟨he, h1, h2, h3⟩ := hx
    obtain ⟨d, e1, hd⟩ := excitedDetOf_ok o hP hR he h1 h2 h3
    obtain ⟨ds, e2, hds⟩ := ih
    exact ⟨d :: ds, by rw [List.mapM_cons, e1, except_ok_bind, e2]; rfl, .cons hd hds⟩
  exact key _ _ hP'

/-- the residual `⟨Φ_μ| U(t)† H U(t) |Φ⟩` with `|Φ_μ⟩ = κ_μ |R⟩` -/
noncomputable def residual (n : ℕ) (q : Bool) (H : Op) (Vs : List (ℝ → Op)) (ts : List ℝ) (R : ℕ) (Φ : St) (x : List ℕ × List ℕ) : ℂ :=
  inner n (uccOp Vs ts (kappa q x.1 x.2 (Pi.single R 1))) (H (uccOp Vs ts Φ))

theorem mapM_guard {α : Type} (P : α → Prop) [DecidablePred P] (l : List α) {e : Exc} :
    (∀ x ∈ l, ¬P x) ∧ l.mapM (fun x => if P x then .error e else pure x) = (.ok l : Except Exc (List α)) ∨
    (∃ x ∈ l, P x) ∧ l.mapM (fun x => if P x then .error e else pure x) = (.error e : Except Exc (List α)) := by
  induction l with
  | nil => exact .inl ⟨by simp, rfl⟩
  | cons x l ih =>
    by_cases hx : P x
    · exact .inr ⟨⟨x, by simp, hx⟩, by rw [List.mapM_cons, if_pos hx]; rfl⟩
    · rcases ih with ⟨h, e⟩ | ⟨⟨y, hy, h⟩, e⟩
      · refine .inl ⟨by simpa [hx] using h, ?_⟩
        rw [List.mapM_cons, if_neg hx, e]; rfl
      · refine .inr ⟨⟨y, by simp [hy], h⟩, ?_⟩
        rw [List.mapM_cons, if_neg hx, e]; rfl

theorem residual_core (o : DescSort) (so : SortOracle) {A : PqeAlg} {xs ys : List (List ℕ × List ℕ)} (h : A.Selects xs) (hs : A.saSD = false)
    (hc : A.compact = false) (hN : A.trotterNumber = 1) {ts : List ℝ} (hr : ∀ p ∈ List.zip ts xs, AmpResolved p.2 p.1)
    {Vs : List (ℝ → Op)} (hV : Flows A.qubitExc xs Vs) (hR : A.Ready) (h0 : A.computer = none) {R : ℕ} {dets : List (ℕ × ℂ)}
    (hd : List.Forall₂ (Excites A.nqb A.qubitExc R) ys dets) :
    A.residualVector o so dets ts = (ys.map (residual A.nqb A.qubitExc A.ham.op Vs ts R A.reference)).mapM
      (fun r => if open Classical in r.im ≠ 0 then .error .valueError else pure r) := by
  obtain ⟨C, h1, h2, h3, h4⟩ := C70_exact o so A.toUccAlg xs h hs hc (by omega) ts hr Vs hV
  have e0 : A.initialComputer = Computer.init A.nqb := by unfold UccAlg.initialComputer; rw [h0]; rfl
  obtain ⟨q1, e1, w1, n1, p1⟩ := applyCircuit_exact (q := Computer.init A.nqb) A.uprep (Computer.WF.init _) hR.prep.1 hR.prep.2
  obtain ⟨q2, e2, w2, n2, p2⟩ := applyCircuit_exact (q := q1) C w1 (by rw [n1]; exact h4) (fun g hg => (h3 g hg).2)
  have hn2 : q2.nqubit = A.nqb := n2.trans n1
  obtain ⟨q3, e3, w3, n3, p3⟩ := C24_apply_operator q2 A.ham w2 (by rw [hn2]; exact hR.ham)
  have hn3 : q3.nqubit = A.nqb := n3.trans hn2
  obtain ⟨q4, e4, w4, n4, p4⟩ := applyCircuit_exact (q := q3) C.adjoint w3 (by rw [hn3]; exact adj_fits h4) (adjoint_exact h3)
  have hn4 : q4.nqubit = A.nqb := n4.trans hn3
  have hU : C.op = uccOp Vs ts := by
    rw [h2, hN]
    have : ts.map (fun t => t / ((1 : ℤ) : ℝ)) = ts := by simp
    rw [this]
    exact pow_one _
  have hun := circuit_adjoint_op (fun g hg => (h3 g hg).1)
  have hval : ∀ J, J < 2 ^ A.nqb → q4.coeff[J]? = some (q4.psi J) := by
    intro J hJ
    have hlen : J < q4.coeff.length := by rw [w4.len, hn4]; exact hJ
    rw [List.getElem?_eq_getElem hlen]
    simp only [Computer.psi, vec, List.getD_eq_getElem _ _ hlen]
  have hpsi : C.op q4.psi = A.ham.op (uccOp Vs ts A.reference) := by
    rw [p4, ← Module.End.mul_apply, hun.2, Module.End.one_apply, p3, p2, hU, p1, UccAlg.reference, e0]
  unfold PqeAlg.residualVector
  rw [if_neg (by simp [hs]), h1, except_ok_bind, e1, except_ok_bind, e2, except_ok_bind, e3, except_ok_bind, e4, except_ok_bind, List.mapM_map]
  clear h hV hr h1 h2
  induction hd with
  | nil => rfl
  | @cons x d ys dets hx hd ih =>
    obtain ⟨x1, x2, _, x3⟩ := hx
    have key : q4.psi d.1 * d.2 = residual A.nqb A.qubitExc A.ham.op Vs ts R A.reference x := by
      unfold residual
      rw [x3, map_smul, ← hpsi, ← hU]
      have hz : (starRingEnd ℂ) d.2 = d.2 := by rcases x1 with e | e <;> rw [e] <;> simp
      have e5 : inner A.nqb (d.2 • C.op (Pi.single d.1 1)) (C.op q4.psi) = d.2 * inner A.nqb (C.op (Pi.single d.1 1)) (C.op q4.psi) := by
        unfold inner
        rw [Finset.mul_sum]
        refine Finset.sum_congr rfl fun I _ => ?_
        rw [Pi.smul_apply, smul_eq_mul, map_mul, hz, mul_assoc]
      rw [e5, inner_circuit h4 (fun g hg => C02_unitary (h3 g hg).1), mul_comm]
      congr 1
      unfold inner
      rw [Finset.sum_eq_single d.1]
      · simp
      · intro I _ hI; simp [Pi.single_eq_of_ne hI]
      · intro hI; exact absurd (Finset.mem_range.2 x2) hI
    rw [List.mapM_cons, List.mapM_cons, pyIndex_ok (hval d.1 x2), except_ok_bind, ih]
    simp only [key]
    rfl

/-- C73: `get_residual_vector(t)`, with the determinants found by `fill_excited_dets`, returns `⟨κ_μ Φ₀|U(t)† H U(t)|Φ⟩` for every pool
operator, in pool order, and raises `ValueError` exactly if one of these numbers is not real. -/
theorem C73_residual (o : DescSort) (so : SortOracle) (A : PqeAlg) (xs ys : List (List ℕ × List ℕ)) (h : A.Selects xs) (hP : A.Pool ys) (hs : A.saSD = false)
    (hc : A.compact = false) (hN : A.trotterNumber = 1) (ts : List ℝ) (hr : ∀ p ∈ List.zip ts xs, AmpResolved p.2 p.1)
    (Vs : List (ℝ → Op)) (hV : Flows A.qubitExc xs Vs) (hR : A.Ready) (h0 : A.computer = none) (R : ℕ) (hRef : IsRefDet A.ref R) :
    ∃ dets, A.fillExcitedDets o = .ok dets ∧
      ((∀ x ∈ ys, (residual A.nqb A.qubitExc A.ham.op Vs ts R A.reference x).im = 0) →
        A.residualVector o so dets ts = .ok (ys.map (residual A.nqb A.qubitExc A.ham.op Vs ts R A.reference))) ∧
      ((∃ x ∈ ys, (residual A.nqb A.qubitExc A.ham.op Vs ts R A.reference x).im ≠ 0) → A.residualVector o so dets ts = .error .valueError) := by
  classical
  obtain ⟨dets, e1, hd⟩ := C73_excited_dets o A ys hP R hRef
  refine ⟨dets, e1, ?_⟩
  have key := residual_core o so h hs hc hN hr hV hR h0 hd
  have hg := mapM_guard (fun r : ℂ => r.im ≠ 0) (ys.map (residual A.nqb A.qubitExc A.ham.op Vs ts R A.reference)) (e := .valueError)
  constructor
  · intro h
    rcases hg with ⟨_, e⟩ | ⟨⟨y, hy, hn⟩, _⟩
    · rw [key, ← e]
    · obtain ⟨x, hx, rfl⟩ := List.mem_map.1 hy
      exact absurd (h x hx) hn
  · rintro ⟨x, hx, hn⟩
    rcases hg with ⟨h, _⟩ | ⟨_, e⟩
    · exact absurd hn (h _ (List.mem_map.2 ⟨x, hx, rfl⟩))
    · rw [key, ← e]

/-- the residuals are those of the used amplitudes -/
theorem residual_used (o : DescSort) (so : SortOracle) (A : PqeAlg) (xs : List (List ℕ × List ℕ)) (h : A.Selects xs) (hs : A.saSD = false) (hc : A.compact = false)
    (dets : List (ℕ × ℂ)) (ts : List ℝ) : A.residualVector o so dets ts = A.residualVector o so dets (usedAmps xs ts) := by
  unfold PqeAlg.residualVector
  rw [C70_used o so A.toUccAlg xs h hs hc ts]

/-- C73: for all amplitudes, `get_residual_vector(t)` returns the residuals of the used amplitudes, or raises `ValueError` if one of them is not real. -/
theorem C73_residual_used (o : DescSort) (so : SortOracle) (A : PqeAlg) (xs ys : List (List ℕ × List ℕ)) (h : A.Selects xs) (hP : A.Pool ys) (hs : A.saSD = false)
    (hc : A.compact = false) (hN : A.trotterNumber = 1) (ts : List ℝ)
    (Vs : List (ℝ → Op)) (hV : Flows A.qubitExc xs Vs) (hR : A.Ready) (h0 : A.computer = none) (R : ℕ) (hRef : IsRefDet A.ref R) :
    ∃ dets, A.fillExcitedDets o = .ok dets ∧
      ((∀ x ∈ ys, (residual A.nqb A.qubitExc A.ham.op Vs (usedAmps xs ts) R A.reference x).im = 0) →
        A.residualVector o so dets ts = .ok (ys.map (residual A.nqb A.qubitExc A.ham.op Vs (usedAmps xs ts) R A.reference))) ∧
      ((∃ x ∈ ys, (residual A.nqb A.qubitExc A.ham.op Vs (usedAmps xs ts) R A.reference x).im ≠ 0) → A.residualVector o so dets ts = .error .valueError) := by
  obtain ⟨dets, e, h1⟩ := C73_residual o so A xs ys h hP hs hc hN (usedAmps xs ts) (usedAmps_resolved xs ts) Vs hV hR h0 R hRef
  rw [← residual_used o so A xs h hs hc dets ts] at h1
  exact ⟨dets, e, h1⟩

/-- C73: if the Hamiltonian has a real matrix and the state preparation is the reference, all residuals are real, so
`get_residual_vector` returns them. -/
theorem C73_real (o : DescSort) (so : SortOracle) (A : PqeAlg) (xs ys : List (List ℕ × List ℕ)) (h : A.Selects xs) (hP : A.Pool ys) (hs : A.saSD = false)
    (hc : A.compact = false) (hN : A.trotterNumber = 1) (ts : List ℝ) (hr : ∀ p ∈ List.zip ts xs, AmpResolved p.2 p.1)
    (Vs : List (ℝ → Op)) (hV : Flows A.qubitExc xs Vs) (hR : A.Ready) (h0 : A.computer = none) (R : ℕ) (hRef : IsRefDet A.ref R)
    (hu : A.uprep = A.refprep) (hH : ∀ t ∈ A.ham, t.1.im = 0 ∧ t.2.PauliString A.nqb ∧ Even t.2.numY) :
    ∃ dets, A.fillExcitedDets o = .ok dets ∧ A.reference = Pi.single R 1 ∧
      (∀ x ∈ ys, (residual A.nqb A.qubitExc A.ham.op Vs ts R (Pi.single R 1) x).im = 0) ∧
      A.residualVector o so dets ts = .ok (ys.map (residual A.nqb A.qubitExc A.ham.op Vs ts R (Pi.single R 1))) := by
  obtain ⟨dets, e1, h1, h1'⟩ := C73_residual o so A xs ys h hP hs hc hN ts hr Vs hV hR h0 R hRef
  clear h1'
  have href : A.reference = Pi.single R 1 := by
    obtain ⟨C, idx, q, c1, c2, c3, c4, c5, c6, c7⟩ := C43_prepares A.ref hP.occ hP.ne A.nqb (by rw [hP.size])
    rw [hP.prep] at c1; cases c1
    have hidx : idx = R := Nat.eq_of_testBit_eq fun i => by rw [c7, hRef]
    subst hidx
    have e0 : A.initialComputer = Computer.init A.nqb := by unfold UccAlg.initialComputer; rw [h0]; rfl
    obtain ⟨q1, e1, w1, n1, p1⟩ := applyCircuit_exact (q := Computer.init A.nqb) A.uprep (Computer.WF.init _) hR.prep.1 hR.prep.2
    rw [hu, c3] at e1; cases e1
    rw [UccAlg.reference, e0, ← p1, c5]
  have hsing : conjSt (Pi.single R 1) = Pi.single R 1 := by
    funext I; by_cases hI : I = R
    · subst hI; simp [conjSt]
    · simp [conjSt, Pi.single_eq_of_ne hI]
  have hUr : RealOp (uccOp Vs ts) := by
    unfold uccOp
    refine RealOp.applyInOrder ?_
    clear h1 hr h
    unfold Flows at hV
    induction hV generalizing ts with
    | nil => simp
    | @cons x V xs Vs hV _ ih =>
      cases ts with
      | nil => simp
      | cons t ts =>
        intro W hW
        rcases List.mem_cons.1 hW with rfl | hW
        · exact RealOp.flow (kappa_skew A.qubitExc x.1 x.2) (hV t)
        · exact ih ts W hW
  have hHr : RealOp A.ham.op := realOp_of_even hH
  have him : ∀ x ∈ ys, (residual A.nqb A.qubitExc A.ham.op Vs ts R (Pi.single R 1) x).im = 0 := by
    intro x _
    rw [← Complex.conj_eq_iff_im]
    unfold residual
    have hk : conjSt (kappa A.qubitExc x.1 x.2 (Pi.single R 1)) = kappa A.qubitExc x.1 x.2 (Pi.single R 1) := by
      obtain ⟨k, hK, _⟩ := kappa_skew A.qubitExc x.1 x.2
      funext I
      have := congrFun hsing (I ^^^ lmask (caList x.1 x.2))
      simp only [conjSt] at this ⊢
      rw [hK, map_mul, this, Complex.conj_ofReal]
    have r1 : conjSt (uccOp Vs ts (kappa A.qubitExc x.1 x.2 (Pi.single R 1))) = uccOp Vs ts (kappa A.qubitExc x.1 x.2 (Pi.single R 1)) := by
      rw [← hUr, hk]
    have r2 : conjSt (A.ham.op (uccOp Vs ts (Pi.single R 1))) = A.ham.op (uccOp Vs ts (Pi.single R 1)) := by
      rw [← hHr, ← hUr, hsing]
    unfold inner
    rw [map_sum]
    refine Finset.sum_congr rfl fun I _ => ?_
    have a1 := congrFun r1 I
    have a2 := congrFun r2 I
    simp only [conjSt] at a1 a2
    rw [map_mul, a1, a1, a2]
  rw [href] at h1
  exact ⟨dets, e1, href, him, h1 him⟩

/-- C73: for a real Hamiltonian, the state preparation being the reference, `get_residual_vector(t)` returns for all amplitudes. -/
theorem C73_real_used (o : DescSort) (so : SortOracle) (A : PqeAlg) (xs ys : List (List ℕ × List ℕ)) (h : A.Selects xs) (hP : A.Pool ys) (hs : A.saSD = false)
    (hc : A.compact = false) (hN : A.trotterNumber = 1) (ts : List ℝ)
    (Vs : List (ℝ → Op)) (hV : Flows A.qubitExc xs Vs) (hR : A.Ready) (h0 : A.computer = none) (R : ℕ) (hRef : IsRefDet A.ref R)
    (hu : A.uprep = A.refprep) (hH : ∀ t ∈ A.ham, t.1.im = 0 ∧ t.2.PauliString A.nqb ∧ Even t.2.numY) :
    ∃ dets, A.fillExcitedDets o = .ok dets ∧ A.reference = Pi.single R 1 ∧
      A.residualVector o so dets ts = .ok (ys.map (residual A.nqb A.qubitExc A.ham.op Vs (usedAmps xs ts) R (Pi.single R 1))) := by
  obtain ⟨dets, e, h1, -, h2⟩ := C73_real o so A xs ys h hP hs hc hN (usedAmps xs ts) (usedAmps_resolved xs ts) Vs hV hR h0 R hRef hu hH
  rw [← residual_used o so A xs h hs hc dets ts] at h2
  exact ⟨dets, e, h1, h2⟩

/-- C73: spin-adapted pools are refused. -/
theorem C73_sa_SD (o : DescSort) (so : SortOracle) (A : PqeAlg) (h : A.saSD = true) (dets : List (ℕ × ℂ)) (ts : List ℝ) :
    A.residualVector o so dets ts = .error .valueError := by
  unfold PqeAlg.residualVector; rw [if_pos h]

/-- C73: `initialize_ansatz` puts every pool operator into the ansatz once, in pool order, with amplitude zero. -/
theorem C73_initialize (A : PqeAlg) (ys : List (List ℕ × List ℕ)) (hP : A.Pool ys) (h1 : A.tops = []) (h2 : A.tamps = []) :
    A.initializeAnsatz.Selects ys ∧ A.initializeAnsatz.Pool ys ∧ A.initializeAnsatz.tamps = List.replicate ys.length 0 ∧
      A.initializeAnsatz.tamps.length = A.initializeAnsatz.tops.length := by
  have hl := hP.exc.length_eq
  refine ⟨?_, ⟨hP.occ, hP.ne, hP.size, hP.small, hP.prep, hP.exc⟩, ?_, ?_⟩
  · unfold UccAlg.Selects PqeAlg.initializeAnsatz
    simp only [h1, List.nil_append]
    rw [List.forall₂_iff_get]
    refine ⟨by simpa using hl, fun i hi hi' => ?_⟩
    have hi0 : i < A.pool.length := by simpa using hi
    have := (List.forall₂_iff_get.1 hP.exc).2 i hi0 hi'
    simp only [List.get_eq_getElem, List.getElem_range] at this ⊢
    exact ⟨_, by rw [List.getElem?_eq_getElem hi0, ← this.1], this.2.1, this.2.2.1⟩
  · simp [PqeAlg.initializeAnsatz, h2, hl]
  · simp [PqeAlg.initializeAnsatz, h1, h2]

/-- C73: called with an ansatz already there, `initialize_ansatz` keeps it, with its amplitudes, in front of the pool. -/
theorem C73_initialize_keeps (A : PqeAlg) :
    A.initializeAnsatz.tops = A.tops ++ List.range A.pool.length ∧ A.initializeAnsatz.tamps = A.tamps ++ List.replicate A.pool.length 0 ∧
      A.initializeAnsatz.pool = A.pool := ⟨rfl, rfl, rfl⟩

/-- C73: `get_res_over_mpdenom` divides the residual of operator `μ` by its Møller-Plesset denominator: the energies of the orbitals it
empties minus those of the orbitals it fills. -/
theorem C73_mp_denominator (A : PqeAlg) (xs : List (List ℕ × List ℕ)) (h : A.Selects xs) (hph : ∀ x ∈ xs, ParticleHole A.ref x.1 x.2)
    (e : List ℝ) (he : A.nqb ≤ e.length) (rs : List ℝ) (hl : rs.length = xs.length) :
    A.resOverMpdenom e rs = .ok (List.zipWith (fun r (x : List ℕ × List ℕ) => r / ((x.2.map (e.getD · 0)).sum - (x.1.map (e.getD · 0)).sum)) rs xs) := by
  have hE : ∀ l : List ℕ, (∀ p ∈ l, p < A.nqb) → l.mapM (pyIndex e) = (.ok (l.map (e.getD · 0)) : Except Exc (List ℝ)) := by
    intro l hl
    induction l with
    | nil => rfl
    | cons p l ih =>
      have hp : p < e.length := lt_of_lt_of_le (hl p (by simp)) he
      rw [List.mapM_cons, pyIndex_ok (List.getElem?_eq_getElem hp), except_ok_bind, ih fun p hp => hl p (by simp [hp]), List.map_cons,
        List.getD_eq_getElem _ _ hp]
      rfl
  unfold PqeAlg.resOverMpdenom UccAlg.Selects at *
  have key : ∀ (is : List ℕ) (xs : List (List ℕ × List ℕ)) (k : ℕ),
      List.Forall₂ (fun i (x : List ℕ × List ℕ) => ∃ z, A.pool[i]? = some (z, excTerms x.1 x.2) ∧ Excit A.nqb x.1 x.2 ∧ x.1.length ≤ 19) is xs →
      (∀ x ∈ xs, ParticleHole A.ref x.1 x.2) → rs.length = k + xs.length →
      (is.zipIdx k).mapM (fun m => do
        let e' ← A.poolAt m.1
        let (cre, ann) ← PqeAlg.exciteLists A.ref e'.2
        let ea ← ann.mapM (pyIndex e)
        let ec ← cre.mapM (pyIndex e)
        let r ← pyIndex rs m.2
        pure (r / (ea.sum - ec.sum))) =
      (.ok (List.zipWith (fun r (x : List ℕ × List ℕ) => r / ((x.2.map (e.getD · 0)).sum - (x.1.map (e.getD · 0)).sum)) (rs.drop k) xs) : Except Exc (List ℝ)) := by
    intro is xs k h
    induction h generalizing k with
    | nil => intro _ _; simp [pure, Except.pure]
    | @cons i x is xs hx _ ih =>
      intro hph hl
      obtain ⟨z, h1, h2, _⟩ := hx
      have hk : k < rs.length := by rw [hl]; simp
      have e1 : A.poolAt i = .ok (z, excTerms x.1 x.2) := by unfold UccAlg.poolAt; rw [h1]
      rw [List.zipIdx_cons, List.mapM_cons, ih (k + 1) (fun x hx => hph x (by simp [hx])) (by rw [hl]; simp; omega)]
      simp only
      rw [e1, except_ok_bind, exciteLists_ok h2 (hph x (by simp)), except_ok_bind]
      simp only
      rw [hE _ h2.bound_a, except_ok_bind, hE _ h2.bound_c, except_ok_bind, pyIndex_ok (List.getElem?_eq_getElem hk), except_ok_bind]
      rw [List.drop_eq_getElem_cons hk, List.zipWith_cons_cons]
      rfl
  simpa using key _ _ 0 h hph (by simpa using hl)

/-- a four-qubit PQE run -/
noncomputable def examplePqe : PqeAlg where
  toUccAlg := exampleAlg
  ref := [1, 1, 0, 0]
  refprep := [gX 0, gX 1]

/-- C73: the example meets the hypotheses of the theorems. -/
theorem C73_example : examplePqe.Pool [([2], [0]), ([3, 2], [1, 0])] ∧ IsRefDet examplePqe.ref 3 ∧ examplePqe.Selects [([3, 2], [1, 0]), ([2], [0])] ∧
    examplePqe.Ready ∧ examplePqe.uprep = examplePqe.refprep ∧ examplePqe.computer = none ∧
    (∀ t ∈ examplePqe.ham, t.1.im = 0 ∧ t.2.PauliString examplePqe.nqb ∧ Even t.2.numY) ∧
    (∀ p ∈ List.zip examplePqe.tamps [(([3, 2] : List ℕ), ([1, 0] : List ℕ)), ([2], [0])], AmpResolved p.2 p.1) := by
  obtain ⟨h1, _, h3, _, h5, _⟩ := C71_example
  have x1 : Excit 4 [3, 2] [1, 0] := by constructor <;> simp
  have x2 : Excit 4 [2] [0] := by constructor <;> simp
  refine ⟨⟨?_, by simp [examplePqe], rfl, by simp [examplePqe, exampleAlg], ?_, ?_⟩, ?_, h1, h3, rfl, rfl, exampleAlg_ham, h5⟩
  · intro x hx; simp [examplePqe] at hx; omega
  · obtain ⟨C, e, rfl⟩ := refprep_eq examplePqe.ref
    rw [e]; rfl
  · exact .cons ⟨rfl, x2, by simp, ⟨by simp [examplePqe], by simp [examplePqe], by simp⟩⟩ (.cons ⟨rfl, x1, by simp, ⟨by simp [examplePqe], by simp [examplePqe], by simp⟩⟩ .nil)
  · intro i
    rcases i with _ | _ | _ | _ | i
    · decide
    · decide
    · decide
    · decide
    · rw [Nat.testBit_lt_two_pow (lt_of_lt_of_le (by norm_num : 3 < 2 ^ 4) (Nat.pow_le_pow_right (by norm_num) (by omega)))]
      simp [examplePqe]

end QF
