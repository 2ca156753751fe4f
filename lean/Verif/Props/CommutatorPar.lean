import Verif.Props.CommutatorCheck
import Verif.Props.EvenY

/-!
C103 in the parallel build: with a Hamiltonian whose strings have an even number of Y the commutators are real and self-adjoint, and the values measured are as
good as those of the serial build, although the commutators' own strings are only known up to what simplification drops.
-/
namespace QF
open SQOperator

/-- every coefficient times `(-1)^(number of Y)`: what the parallel build measures -/
noncomputable def flipY (F : QubitOperator) : QubitOperator := F.map fun t => (t.1 * (-1) ^ t.2.numY, t.2)

theorem flipY_append (F G : QubitOperator) : flipY (F ++ G) = flipY F ++ flipY G := by simp [flipY]

/-- a real self-adjoint operator is what the parallel build measures in place of it -/
theorem flipY_op {n : ℕ} {F : QubitOperator} (hF : ∀ t ∈ F, t.2.Canonical) (hf : ∀ t ∈ F, ∀ g ∈ t.2, g.target < n) (hR : RealOp F.op) (hH : ∀ m, n ≤ m → HermitianOn m F.op) :
    (flipY F).op = F.op := by
  have eF := op_eq_opLR_canonical hF
  have hcan : ∀ f, ∀ t ∈ recoef F f, t.2.Canonical := by
    intro f t ht
    obtain ⟨u, hu, rfl⟩ := List.mem_map.1 ht
    exact hF u hu
  have hconj : (recoef F fun t => (starRingEnd ℂ) t.1).opLR = F.opLR := by
    refine adj_unique (n := n) (A := F.opLR) (fun m hm => ?_) (fun m hm => eF ▸ hH m hm)
    have key : ∀ F : QubitOperator, (∀ t ∈ F, t.2.Canonical) → (∀ t ∈ F, ∀ g ∈ t.2, g.target < n) → IsAdj m F.opLR (recoef F fun t => (starRingEnd ℂ) t.1).opLR := by
      intro F
      induction F with
      | nil => intro _ _ φ ψ; simp [recoef, QubitOperator.opLR, inner]
      | cons t F ih =>
        intro hFc hfit
        have s1 : QubitOperator.opLR (t :: F) = t.1 • t.2.opLR + QubitOperator.opLR F := by simp [QubitOperator.opLR]
        have s2 : (recoef (t :: F) fun t => (starRingEnd ℂ) t.1).opLR = (starRingEnd ℂ) t.1 • t.2.opLR + (recoef F fun t => (starRingEnd ℂ) t.1).opLR := by
          simp [recoef, QubitOperator.opLR]
        rw [s1, s2]
        refine IsAdj.addOps ?_ (ih (fun t ht => hFc t (by simp [ht])) (fun t ht => hfit t (by simp [ht])))
        exact (IsAdj.canonical (hFc t (by simp)) fun g hg => lt_of_lt_of_le (hfit t (by simp) g hg) hm).smul t.1
    exact key F hF hf
  have key : ∀ G : QubitOperator, (∀ t ∈ G, t.2.Canonical) → ∀ ψ, (flipY G).op ψ = conjSt ((recoef G fun t => (starRingEnd ℂ) t.1).op (conjSt ψ)) := by
    intro G
    induction G with
    | nil => intro _ ψ; funext I; simp [recoef, flipY, QubitOperator.op, conjSt]
    | cons t G ih =>
      intro hG ψ
      have s1 : QubitOperator.op (recoef (t :: G) fun t => (starRingEnd ℂ) t.1) = (starRingEnd ℂ) t.1 • t.2.op + QubitOperator.op (recoef G fun t => (starRingEnd ℂ) t.1) := by
        simp [recoef, QubitOperator.op]
      have s2 : QubitOperator.op (flipY (t :: G)) = (t.1 * (-1) ^ t.2.numY) • t.2.op + (flipY G).op := by simp [flipY, QubitOperator.op]
      rw [s1, s2, LinearMap.add_apply, ih (fun t ht => hG t (by simp [ht])), LinearMap.add_apply, LinearMap.smul_apply, LinearMap.smul_apply,
        circuit_conj (fun g hg => ((canonical_iff.1 (hG t (by simp))).1 g hg))]
      funext I
      simp only [Pi.add_apply, Pi.smul_apply, conjSt, smul_eq_mul, map_add, map_mul, map_pow, map_neg, map_one, Complex.conj_conj]
      ring
  apply Op.ext'
  intro ψ I
  rw [key F hF, op_eq_opLR_canonical (hcan _), hconj, ← eF, hR, conjSt_conjSt]

theorem RealOp.sub {A B : Op} (hA : RealOp A) (hB : RealOp B) : RealOp (A - B) := fun ψ => by
  rw [LinearMap.sub_apply, LinearMap.sub_apply, hA, hB]
  funext I; simp [conjSt]

theorem realOp_kappa (c a : List ℕ) : RealOp (kappa false c a) := by
  unfold kappa
  exact (RealOp.fermiString _ _).sub (RealOp.fermiString _ _)

theorem Dropped.flipY {n k : ℕ} {D : QubitOperator} (h : Dropped n k D) : Dropped n k (flipY D) where
  canonical t ht := by obtain ⟨u, hu, rfl⟩ := List.mem_map.1 ht; exact h.canonical u hu
  fits t ht := by obtain ⟨u, hu, rfl⟩ := List.mem_map.1 ht; exact h.fits u hu
  small t ht := by obtain ⟨u, hu, rfl⟩ := List.mem_map.1 ht; simpa using h.small u hu
  few := by unfold QF.flipY; rw [List.length_map]; exact h.few

theorem parallel_flip (q : Computer) (sch : Schedule) (A : QubitOperator) (hq : q.WF) (h0 : 1 ≤ q.nqubit) (hA : ∀ t ∈ A, t.2.PauliString q.nqubit) :
    q.directOpExpVal (some sch) A = .ok (inner q.nqubit q.psi ((flipY A).op q.psi), q) := by
  rw [C29_parallel_value q sch A hq h0 hA, inner_op]
  unfold flipY
  rw [List.map_map]
  congr 3
  refine List.map_congr_left fun t _ => ?_
  simp [mul_assoc]

theorem oppl_par (q : Computer) (sch : Schedule) (hq : q.WF) (h0 : 1 ≤ q.nqubit) (P : QubitOpPool) (hP : ∀ u ∈ P, ∀ t ∈ u.2, t.2.PauliString q.nqubit) :
    q.directOpplExpVal (some sch) P = .ok (P.map fun u => inner q.nqubit q.psi ((flipY u.2).op q.psi) * u.1, q) := by
  unfold Computer.directOpplExpVal
  have key : ∀ (P : QubitOpPool) (acc : List ℂ), (∀ u ∈ P, ∀ t ∈ u.2, t.2.PauliString q.nqubit) → P.foldlM (fun (s : List ℂ × Computer) t => (do
      let (v, q1) ← s.2.directOpExpVal (some sch) t.2
      pure (s.1 ++ [v * t.1], q1) : Except Exc (List ℂ × Computer))) (acc, q) = .ok (acc ++ P.map fun u => inner q.nqubit q.psi ((flipY u.2).op q.psi) * u.1, q) := by
    intro P
    induction P with
    | nil => intro acc _; simp; rfl
    | cons u P ih =>
      intro acc h
      rw [List.foldlM_cons]
      simp only [parallel_flip q sch u.2 hq h0 (h u (by simp)), except_ok_bind, pure, Except.pure]
      have := ih (acc ++ [inner q.nqubit q.psi ((flipY u.2).op q.psi) * u.1]) (fun v hv => h v (by simp [hv]))
      simp only [pure, Except.pure] at this
      rw [this]; simp
  have := key P [] hP
  simpa using this

theorem idxd_par (q : Computer) (sch : Schedule) (hq : q.WF) (h0 : 1 ≤ q.nqubit) (P : QubitOpPool) (hP : ∀ u ∈ P, ∀ t ∈ u.2, t.2.PauliString q.nqubit) (idxs : List ℤ)
    (hi : ∀ i ∈ idxs, 0 ≤ i ∧ i < P.length) :
    q.directIdxdOpplExpVal (some sch) P idxs = .ok (idxs.map fun i => inner q.nqubit q.psi ((flipY (P.getD i.toNat (0, [])).2).op q.psi) * (P.getD i.toNat (0, [])).1, q) := by
  unfold Computer.directIdxdOpplExpVal
  have key : ∀ (l : List ℤ) (acc : List ℂ), (∀ i ∈ l, 0 ≤ i ∧ i < P.length) → l.foldlM (fun (s : List ℂ × Computer) i => (do
      if i < 0 then .error .undefinedBehaviour
      match P[i.toNat]? with
      | none => .error .undefinedBehaviour
      | some t =>
        match some sch with
        | some sch => do
          let (v, q1) ← s.2.directOpExpVal (some sch) t.2
          pure (s.1 ++ [v * t.1], q1)
        | none => do
          let q1 ← s.2.applyOperator t.2
          let r ← innerProd 0 q.coeff q1.coeff
          pure (s.1 ++ [r * t.1], { q1 with coeff := q.coeff }) : Except Exc (List ℂ × Computer))) (acc, q) =
        .ok (acc ++ l.map fun i => inner q.nqubit q.psi ((flipY (P.getD i.toNat (0, [])).2).op q.psi) * (P.getD i.toNat (0, [])).1, q) := by
    intro l
    induction l with
    | nil => intro acc _; simp; rfl
    | cons i l ih =>
      intro acc h
      have hlt : i.toNat < P.length := by have := h i (by simp); omega
      have hn : ¬ i < 0 := by have := h i (by simp); omega
      rw [List.foldlM_cons]
      have hg : P[i.toNat]? = some P[i.toNat] := List.getElem?_eq_getElem hlt
      have hgd : P.getD i.toNat (0, []) = P[i.toNat] := by rw [List.getD_eq_getElem?_getD, hg]; rfl
      simp only [if_neg hn, hg, pure, Except.pure, except_ok_bind, parallel_flip q sch _ hq h0 (hP _ (List.getElem_mem hlt))]
      have := ih (acc ++ [inner q.nqubit q.psi ((flipY P[i.toNat].2).op q.psi) * P[i.toNat].1]) (fun j hj => h j (by simp [hj]))
      simp only [pure, Except.pure] at this
      erw [this]
      rw [List.map_cons, hgd]; simp
  have := key idxs [] hi
  rw [List.nil_append] at this
  exact this

theorem comm_herm {n : ℕ} {H : Op} (hH : HermitianOn n H) {c a : List ℕ} (hx : Excit n c a) : HermitianOn n (H * kappa false c a - kappa false c a * H) := by
  obtain ⟨k, hK, ha⟩ := kappa_skew false c a
  have hF := kappa_flow (q := false) hx.bound_c hx.bound_a (V := skewExp _ k) (fun s => isExp_skew hK ha s)
  have hanti : ∀ φ ψ, inner n φ (kappa false c a ψ) = -inner n (kappa false c a φ) ψ := fun φ ψ => hF.anti _ _
  have sr : ∀ φ a b : St, inner n φ (a - b) = inner n φ a - inner n φ b := by
    intro φ a b
    unfold inner
    rw [← Finset.sum_sub_distrib]
    refine Finset.sum_congr rfl fun I _ => ?_
    rw [Pi.sub_apply, mul_sub]
  have sl : ∀ φ a b : St, inner n (a - b) φ = inner n a φ - inner n b φ := by
    intro φ a b
    unfold inner
    rw [← Finset.sum_sub_distrib]
    refine Finset.sum_congr rfl fun I _ => ?_
    rw [Pi.sub_apply, map_sub, sub_mul]
  intro φ ψ
  rw [LinearMap.sub_apply, LinearMap.sub_apply, sr, sl]
  simp only [Module.End.mul_apply]
  rw [hH, hanti, hanti, hH]
  ring

/-- C103 in the parallel build, for Hamiltonians whose strings have an even number of Y (all molecules, C108): the same statement, with the same error bound, for every schedule. -/
theorem C103_parallel (o : DescSort) (A : UccAlg) (hR : A.Ready) (h1q : 1 ≤ A.nqb) (hH : ∀ t ∈ A.ham, t.1.im = 0 ∧ t.2.PauliString A.nqb ∧ Even t.2.numY)
    (hp : ∀ e ∈ A.pool, ∃ c a, e.2 = excTerms c a ∧ Excit A.nqb c a ∧ c.length ≤ 19 ∧ e.1.im = 0) (sch : Schedule) :
    ∃ CP, A.fillCommutatorPool o = .ok (CP, A) ∧ ∀ (U : Circuit) (idxs : List ℤ), U.Fits A.nqb → (∀ g ∈ U, ExactGate g) →
      (∀ i ∈ idxs, 0 ≤ i ∧ i < A.pool.length) →
      (∀ vs, A.measureOperators (some sch) CP U idxs = .ok vs → List.Forall₂ (fun (e : ℂ × SQOperator) v => ∀ c a, e.2 = excTerms c a →
        ∃ Q R d, jwTransform o e.2 false = .ok (Q, R) ∧ |v - d| ≤ commErr A (U.op A.initialComputer.psi) e.1 Q ∧
          ∀ V, IsFlow (kappa false c a) V → HasDerivAt (fun s => energy A.nqb A.ham.op (V (s * e.1.re) (U.op A.initialComputer.psi))) d 0)
        (selected A.pool idxs) vs) ∧
      ((∀ e ∈ selected A.pool idxs, ∀ Q R, jwTransform o e.2 false = .ok (Q, R) → commErr A (U.op A.initialComputer.psi) e.1 Q ≤ 1e-7) →
        ∃ vs, A.measureOperators (some sch) CP U idxs = .ok vs) := by
  obtain ⟨CP, h1, h2⟩ := C103_pool o A (fun t ht => (hH t ht).2.1) fun e he => by
    obtain ⟨c, a, x1, x2, x3, _⟩ := hp e he; exact ⟨c, a, x1, x2, x3⟩
  refine ⟨CP, h1, fun U idxs hf hg hi => ?_⟩
  obtain ⟨psi, e1, w, n, p⟩ := applyCircuit_exact (q := A.initialComputer) U hR.wf (by rw [hR.size]; exact hf) hg
  rw [hR.size] at n
  have hψ : OnReg A.nqb (U.op A.initialComputer.psi) := by rw [← p, ← n]; exact psi_onReg w
  have hherm := hermitian_of_real fun t ht => ⟨(hH t ht).1, (hH t ht).2.1⟩
  have hhermm : ∀ m, A.nqb ≤ m → HermitianOn m A.ham.op := fun m hm => hermitian_of_real fun t ht => ⟨(hH t ht).1, by
    have := (hH t ht).2.1
    exact ⟨this.gates, this.distinct, fun g hg => ⟨lt_of_lt_of_le (this.fits g hg).1 hm, lt_of_lt_of_le (this.fits g hg).2 hm⟩⟩⟩
  have hreal := realOp_of_even hH
  have hex : ∀ u ∈ CP, ∀ t ∈ u.2, t.2.PauliString psi.nqubit := by
    intro u hu t ht
    obtain ⟨e, -, -, h3, h4, -⟩ := forall₂_mem_right h2 hu
    rw [n]
    exact QiteAlg.canonical_pauliString (h3.canonical t ht) fun g hg => (h4 t ht g hg).1
  -- one value
  have one : ∀ (e : ℂ × SQOperator) (t : ℂ × QubitOperator), (t.1 = e.1 ∧ t.2.Normal ∧ (∀ u ∈ t.2, u.2.Fits A.nqb) ∧
      ∀ c a, e.2 = excTerms c a → ∃ Q D, jwTransform o e.2 false = .ok (Q, e.2) ∧ Dropped A.nqb (4 * (A.ham.length * Q.length)) D ∧
        A.ham.op * kappa false c a - kappa false c a * A.ham.op = t.2.op + QubitOperator.op D) → e ∈ A.pool →
      ∀ c a, e.2 = excTerms c a → ∃ Q R d, jwTransform o e.2 false = .ok (Q, R) ∧
        ‖inner A.nqb (U.op A.initialComputer.psi) ((flipY t.2).op (U.op A.initialComputer.psi)) * t.1 - (d : ℝ)‖ ≤ commErr A (U.op A.initialComputer.psi) e.1 Q ∧
          ∀ V, IsFlow (kappa false c a) V → HasDerivAt (fun s => energy A.nqb A.ham.op (V (s * e.1.re) (U.op A.initialComputer.psi))) d 0 := by
    intro e t ⟨t1, t2, t3, t4⟩ he c a hc
    obtain ⟨Q, D, hQ, hD, hop⟩ := t4 c a hc
    obtain ⟨c', a', x1, x2, _, x4⟩ := hp e he
    obtain ⟨rfl, rfl⟩ := excTerms_inj (hc.symm.trans x1)
    obtain ⟨d, _, d1, d2⟩ := comm_slope hherm (q := false) x2 hψ x4
    refine ⟨Q, _, d, hQ, ?_, d2⟩
    have app : ∀ X Y : QubitOperator, QubitOperator.op (X ++ Y) = QubitOperator.op X + QubitOperator.op Y := fun X Y => by simp [QubitOperator.op]
    have hsum : QubitOperator.op (t.2 ++ D) = A.ham.op * kappa false c a - kappa false c a * A.ham.op := by rw [app, hop]
    have hflip : (flipY (t.2 ++ D)).op = QubitOperator.op (t.2 ++ D) := by
      refine flipY_op (n := A.nqb) ?_ ?_ ?_ ?_
      · intro u hu
        rcases List.mem_append.1 hu with hu | hu
        exacts [t2.canonical u hu, hD.canonical u hu]
      · intro u hu g hg
        rcases List.mem_append.1 hu with hu | hu
        exacts [(t3 u hu g hg).1, (hD.fits u hu g hg).1]
      · rw [hsum]; exact (hreal.mul (realOp_kappa c a)).sub ((realOp_kappa c a).mul hreal)
      · intro m hm
        rw [hsum]
        exact comm_herm (hhermm m hm) ⟨x2.desc_c, x2.desc_a, x2.rank, x2.ne, fun p hp => lt_of_lt_of_le (x2.bound_c p hp) hm, fun p hp => lt_of_lt_of_le (x2.bound_a p hp) hm⟩
    rw [flipY_append, app, hsum] at hflip
    rw [← d1, ← hflip, LinearMap.add_apply, inner_add_right, t1]
    generalize U.op A.initialComputer.psi = ψ
    have : inner A.nqb ψ ((flipY t.2).op ψ) * e.1 - e.1 * (inner A.nqb ψ ((flipY t.2).op ψ) + inner A.nqb ψ ((flipY D).op ψ)) =
        -(e.1 * inner A.nqb ψ ((flipY D).op ψ)) := by ring
    rw [this, norm_neg, norm_mul]
    unfold commErr
    exact mul_le_mul_of_nonneg_left (dropped_inner hD.flipY ψ) (norm_nonneg _)
  -- all values
  have hall : ∃ vs q', (if idxs = [] then psi.directOpplExpVal (some sch) CP else psi.directIdxdOpplExpVal (some sch) CP idxs) = .ok (vs, q') ∧
      List.Forall₂ (fun (e : ℂ × SQOperator) (v : ℂ) => ∀ c a, e.2 = excTerms c a → ∃ Q R d, jwTransform o e.2 false = .ok (Q, R) ∧
        ‖v - (d : ℝ)‖ ≤ commErr A (U.op A.initialComputer.psi) e.1 Q ∧
          ∀ V, IsFlow (kappa false c a) V → HasDerivAt (fun s => energy A.nqb A.ham.op (V (s * e.1.re) (U.op A.initialComputer.psi))) d 0)
        (selected A.pool idxs) vs := by
    unfold selected
    by_cases h0 : idxs = []
    · rw [if_pos h0, if_pos h0]
      refine ⟨_, _, oppl_par psi sch w (by omega) CP hex, ?_⟩
      rw [List.forall₂_map_right_iff]
      have h3 := List.forall₂_and_left (R := _) (p := fun e => e ∈ A.pool) A.pool CP |>.2 ⟨fun p hp => hp, h2⟩
      refine h3.imp fun e t ⟨he, ht⟩ => ?_
      rw [n, p]; exact one e t ht he
    · rw [if_neg h0, if_neg h0]
      refine ⟨_, _, idxd_par psi sch w (by omega) CP hex idxs (by rw [← h2.length_eq]; exact hi), ?_⟩
      rw [List.forall₂_map_right_iff, List.forall₂_map_left_iff, List.forall₂_same]
      intro i hi'
      have hlt : i.toNat < A.pool.length := by have := hi i hi'; omega
      rw [n, p]
      refine one _ _ (forall₂_getD h2 _ _ hlt) ?_
      rw [List.getD_eq_getElem?_getD, List.getElem?_eq_getElem hlt]; exact List.getElem_mem hlt
  obtain ⟨zs, q', e2, hz⟩ := hall
  have hm : A.measureOperators (some sch) CP U idxs = if zs.any (fun z => decide (1e-7 < |z.im|)) then .error .assertionError else .ok (zs.map Complex.re) := by
    unfold UccAlg.measureOperators
    rw [e1, except_ok_bind]
    by_cases h0 : idxs = []
    · rw [if_pos h0] at e2
      rw [e2, if_pos h0, except_ok_bind]
      by_cases hb : (zs.any fun z => decide (1e-7 < |z.im|)) = true
      · rw [if_pos hb]; simp only [hb, if_true]; rfl
      · rw [if_neg hb]; simp only [hb]; rfl
    · rw [if_neg h0] at e2
      rw [e2, if_neg h0, except_ok_bind]
      by_cases hb : (zs.any fun z => decide (1e-7 < |z.im|)) = true
      · rw [if_pos hb]; simp only [hb, if_true]; rfl
      · rw [if_neg hb]; simp only [hb]; rfl
  have hre : ∀ (z : ℂ) (d : ℝ), |z.re - d| ≤ ‖z - d‖ ∧ |z.im| ≤ ‖z - d‖ := fun z d => by
    have h1 := Complex.abs_re_le_norm (z - d)
    have h2 := Complex.abs_im_le_norm (z - d)
    rw [Complex.sub_re, Complex.ofReal_re] at h1
    rw [Complex.sub_im, Complex.ofReal_im, sub_zero] at h2
    exact ⟨h1, h2⟩
  refine ⟨fun vs hv => ?_, fun hsmall => ?_⟩
  · rw [hm] at hv
    split_ifs at hv
    cases hv
    rw [List.forall₂_map_right_iff]
    refine hz.imp fun e z h c a hc => ?_
    obtain ⟨Q, R, d, x1, x2, x3⟩ := h c a hc
    exact ⟨Q, R, d, x1, le_trans (hre z d).1 x2, x3⟩
  · refine ⟨zs.map Complex.re, ?_⟩
    rw [hm, if_neg]
    rw [Bool.not_eq_true, List.any_eq_false]
    intro z hzm
    obtain ⟨e, he, h⟩ := forall₂_mem_right hz hzm
    obtain ⟨c, a, hc, _⟩ := hp e (selected_mem hi he)
    obtain ⟨Q, R, d, x1, x2, _⟩ := h c a hc
    have := le_trans ((hre z d).2.trans x2) (hsmall e he Q R x1)
    simpa using this

/-- The hypotheses of C103_parallel are met by the example, for every schedule, and its measurements return one value per operator asked for. -/
theorem C103_parallel_example (o : DescSort) (sch : Schedule) : (∀ t ∈ exampleAlg.ham, t.1.im = 0 ∧ t.2.PauliString exampleAlg.nqb ∧ Even t.2.numY) ∧
    ∃ CP, exampleAlg.fillCommutatorPool o = .ok (CP, exampleAlg) ∧
      (∃ vs, exampleAlg.measureOperators (some sch) CP exampleAlg.uprep [] = .ok vs ∧ vs.length = 2) ∧
      ∃ vs, exampleAlg.measureOperators (some sch) CP exampleAlg.uprep [1] = .ok vs ∧ vs.length = 1 := by
  obtain ⟨_, _, hR, _, _, _, hp⟩ := C71_example
  have hH := exampleAlg_ham
  obtain ⟨CP, f1, f2⟩ := C103_parallel o exampleAlg hR (by decide) hH hp sch
  have key : ∀ idxs : List ℤ, (∀ i ∈ idxs, 0 ≤ i ∧ i < exampleAlg.pool.length) → ∃ vs, exampleAlg.measureOperators (some sch) CP exampleAlg.uprep idxs = .ok vs ∧
      vs.length = (selected exampleAlg.pool idxs).length := by
    intro idxs hi
    obtain ⟨g1, g2⟩ := f2 exampleAlg.uprep idxs hR.prep.1 hR.prep.2 hi
    obtain ⟨vs, hvs⟩ := g2 fun e he => exampleAlg_commErr o e (selected_mem hi he)
    exact ⟨vs, hvs, (g1 vs hvs).length_eq.symm⟩
  exact ⟨hH, CP, f1, key [] (by simp), key [1] (by simp [exampleAlg])⟩

end QF
