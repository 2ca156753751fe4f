import Verif.Props.Fermion

/-! C36 Jordan-Wigner transform, C37 anticommutation of the images. -/
namespace QF
open SQOperator

theorem Lat.mono {m k : ℕ} {c : ℂ} (h : Lat m c) (hk : m ≤ k) : Lat k c := by
  have h1 : Lat (k - m) 1 := ⟨2 ^ (k - m), 0, by push_cast; ring⟩
  have := h.mul h1
  rwa [mul_one, show m + (k - m) = k by omega] at this

/-- one term of `jw_transform` -/
theorem jw_term (qe : Bool) (k : Key) (h1 : k.1.Nodup) (h2 : k.2.Nodup) (hl : k.1.length + k.2.length ≤ 39)
    (h0 : ¬ (k.1.length = 0 ∧ k.2.length = 0)) :
    ∃ H, (do
      let t1 ← jwHelper [] k.1 true qe
      jwHelper t1 k.2 false qe : Except Exc QubitOperator) = .ok H ∧ H.opLR = ladString qe k ∧ (∀ t ∈ H, PauliCircuit t.2) ∧
        ∀ t ∈ H, Lat (k.1.length + k.2.length) t.1 := by
  have hsub : ∀ {l : List ℕ} (j : ℕ), l.Nodup → (l.take j).Nodup := fun j h => h.sublist (List.take_sublist _ _)
  obtain ⟨H1, e1, i1⟩ := jwHelper_ok qe true k.1 [] 1 0 ⟨by simp, by simp, .inl ⟨rfl, rfl, rfl⟩⟩ (by omega) (by
    intro j _
    have := lad_string_ne_zero qe (k.1.take j) [] (hsub j h1) List.nodup_nil
    simpa using this)
  obtain ⟨H2, e2, i2⟩ := jwHelper_ok qe false k.2 H1 _ _ i1 (by omega) (by
    intro j _
    have := lad_string_ne_zero qe k.1 (k.2.take j) h1 (hsub j h2)
    simpa using this)
  refine ⟨H2, by rw [e1, except_ok_bind, e2], ?_, i2.pauli, fun t ht => (i2.lat t ht).mono (by omega)⟩
  rcases i2.op with ⟨_, _, h⟩ | h
  · exact absurd (by omega) h0
  · rw [h, one_mul]; rfl

theorem opLR_app (A B : QubitOperator) : QubitOperator.opLR (A ++ B) = A.opLR + B.opLR := by simp [QubitOperator.opLR]

theorem opLR_multCoeffs (A : QubitOperator) (z : ℂ) : (A.multCoeffs z).opLR = z • A.opLR := by
  unfold QubitOperator.opLR QubitOperator.multCoeffs
  induction A with
  | nil => simp
  | cons t A ih => simp only [List.map_cons, List.sum_cons, smul_add, smul_smul]; rw [ih, mul_comm z]

theorem jw_fold (qe : Bool) : ∀ (R : SQOperator) (qo : QubitOperator),
    (∀ t ∈ R, t.2.1.Nodup ∧ t.2.2.Nodup ∧ t.2.1.length + t.2.2.length ≤ 39) → (∀ t ∈ qo, PauliCircuit t.2) →
    ∃ Q, R.foldlM (fun (qo : QubitOperator) t => (do
      if t.2.1.length = 0 ∧ t.2.2.length = 0 then pure (qo.addOp [(t.1, [])])
      else do
        let t1 ← jwHelper [] t.2.1 true qe
        let t1 ← jwHelper t1 t.2.2 false qe
        pure (qo.addOp (t1.multCoeffs t.1)) : Except Exc QubitOperator)) qo = .ok Q ∧
      Q.opLR = qo.opLR + (R.map fun t => t.1 • ladString qe t.2).sum ∧ (∀ t ∈ Q, PauliCircuit t.2) ∧
      (∀ S : ℂ → Prop, (∀ t ∈ R, ∀ y, Lat (t.2.1.length + t.2.2.length) y → S (y * t.1)) → (∀ t ∈ qo, S t.1) → ∀ t ∈ Q, S t.1) := by
  intro R
  induction R with
  | nil => intro qo _ h; exact ⟨qo, rfl, by simp, h, fun _ _ h => h⟩
  | cons t R ih =>
    intro qo hR hq
    obtain ⟨n1, n2, hl⟩ := hR t (by simp)
    have hstep : ∃ q1, (do
      if t.2.1.length = 0 ∧ t.2.2.length = 0 then pure (qo.addOp [(t.1, [])])
      else do
        let t1 ← jwHelper [] t.2.1 true qe
        let t1 ← jwHelper t1 t.2.2 false qe
        pure (qo.addOp (t1.multCoeffs t.1)) : Except Exc QubitOperator) = .ok q1 ∧
        q1.opLR = qo.opLR + t.1 • ladString qe t.2 ∧ (∀ t ∈ q1, PauliCircuit t.2) ∧
        (∀ S : ℂ → Prop, (∀ y, Lat (t.2.1.length + t.2.2.length) y → S (y * t.1)) → (∀ t ∈ qo, S t.1) → ∀ t ∈ q1, S t.1) := by
      by_cases h0 : t.2.1.length = 0 ∧ t.2.2.length = 0
      · rw [if_pos h0]
        refine ⟨qo ++ [(t.1, [])], by rw [addOp_eq]; rfl, ?_, ?_, ?_⟩
        · have e1 : t.2.1 = [] := List.length_eq_zero_iff.1 h0.1
          have e2 : t.2.2 = [] := List.length_eq_zero_iff.1 h0.2
          rw [opLR_app]
          unfold ladString
          rw [e1, e2]
          simp [QubitOperator.opLR, Circuit.opLR]
        · intro u hu
          rcases List.mem_append.1 hu with h | h
          · exact hq u h
          · rw [List.mem_singleton.1 h]; intro g hg; simp at hg
        · intro S hz hq' u hu
          rcases List.mem_append.1 hu with h | h
          · exact hq' u h
          · rw [List.mem_singleton.1 h]
            have := hz 1 ⟨2 ^ (t.2.1.length + t.2.2.length), 0, by push_cast; ring⟩
            rwa [one_mul] at this
      · rw [if_neg h0]
        obtain ⟨H, e, ho, hp, hlat⟩ := jw_term qe t.2 n1 n2 hl h0
        refine ⟨qo ++ H.multCoeffs t.1, ?_, ?_, ?_, ?_⟩
        · rcases hq1 : jwHelper [] t.2.1 true qe with x | t1
          · rw [hq1] at e; cases e
          · rw [hq1, except_ok_bind] at e
            rw [except_ok_bind, e, except_ok_bind, addOp_eq]; rfl
        · rw [opLR_app, opLR_multCoeffs, ho]
        · intro u hu
          rcases List.mem_append.1 hu with h | h
          · exact hq u h
          · obtain ⟨w, hw, rfl⟩ := List.mem_map.1 h
            exact hp w hw
        · intro S hz hq' u hu
          rcases List.mem_append.1 hu with h | h
          · exact hq' u h
          · obtain ⟨w, hw, rfl⟩ := List.mem_map.1 h
            exact hz _ (hlat w hw)
    obtain ⟨q1, e1, o1, p1, l1⟩ := hstep
    obtain ⟨Q, e2, o2, p2, l2⟩ := ih q1 (fun t ht => hR t (by simp [ht])) p1
    refine ⟨Q, ?_, ?_, p2, fun S hz hq' => l2 S (fun u hu => hz u (by simp [hu])) (l1 S (hz t (by simp)) hq')⟩
    · rw [List.foldlM_cons, e1, except_ok_bind, e2]
    · rw [o2, o1, List.map_cons, List.sum_cons, add_assoc]

theorem jw_grid (o : DescSort) (A : SQOperator) (qe : Bool) (hd : A.Distinct)
    (hl : ∀ t ∈ A, t.2.1.length + t.2.2.length ≤ 39) :
    ∃ Q R DQ, jwTransform o A qe = .ok (Q, R) ∧ simplify o A = .ok R ∧
      (R.map fun t => t.1 • ladString qe t.2).sum = Q.opLR + QubitOperator.opLR DQ ∧ Q.Normal ∧
      (∀ t ∈ Q, 1e-12 < ‖t.1‖) ∧ QubitOperator.Negligible DQ ∧
      (∀ S, Grid S → (∀ t ∈ R, ∀ y, Lat (t.2.1.length + t.2.2.length) y → S (y * t.1)) → QubitOperator.opLR DQ = 0 ∧ ∀ t ∈ Q, S t.1) := by
  obtain ⟨R, D, e1, _, h2, _⟩ := C35_simplify o A
  have hR : ∀ t ∈ R, t.2.1.Nodup ∧ t.2.2.Nodup ∧ t.2.1.length + t.2.2.length ≤ 39 := by
    intro t ht
    obtain ⟨_, u, hu, p1, p2⟩ := h2 t (by simp [ht])
    exact ⟨p1.nodup_iff.2 (hd u hu).1, p2.nodup_iff.2 (hd u hu).2, by rw [p1.length_eq, p2.length_eq]; exact hl u hu⟩
  obtain ⟨qo, e2, o2, p2, l2⟩ := jw_fold qe R [] hR (by simp)
  obtain ⟨Q, DQ, e3, o3, nQ, cD, nd, hs1, hs2, _⟩ := C20_simplify qo (isPauli_of_circuits p2)
  refine ⟨Q, R, DQ, ?_, e1, ?_, nQ, hs1, negligible_of nd cD hs2, ?_⟩
  · unfold jwTransform
    rw [e1, except_ok_bind]
    erw [e2]
    rw [except_ok_bind, e3]
    rfl
  · rw [← o3, o2]; simp [QubitOperator.opLR]
  · intro S hS hz
    obtain ⟨Q', g1, g2, _, g3⟩ := QubitOperator.simplify_grid hS p2 (l2 S hz (by simp))
    rw [e3] at g1; cases g1
    rw [← g2] at o3
    exact ⟨left_eq_add.1 o3, g3⟩

theorem jw_core (o : DescSort) (A : SQOperator) (qe : Bool) (hd : A.Distinct)
    (hl : ∀ t ∈ A, t.2.1.length + t.2.2.length ≤ 39) :
    ∃ Q R DQ, jwTransform o A qe = .ok (Q, R) ∧ simplify o A = .ok R ∧
      (R.map fun t => t.1 • ladString qe t.2).sum = Q.opLR + QubitOperator.opLR DQ ∧ Q.Normal ∧
      (∀ t ∈ Q, 1e-12 < ‖t.1‖) ∧ QubitOperator.Negligible DQ ∧
      (∀ m M, M ≤ 39 → (∀ t ∈ R, Lat m t.1 ∧ t.2.1.length + t.2.2.length + m ≤ M) → QubitOperator.opLR DQ = 0 ∧ ∀ t ∈ Q, Lat M t.1) := by
  obtain ⟨Q, R, DQ, e1, e2, e3, e4, e5, e6, e7⟩ := jw_grid o A qe hd hl
  exact ⟨Q, R, DQ, e1, e2, e3, e4, e5, e6, fun m M hM hz => e7 (Lat M) (Lat.grid hM) fun t ht y hy => (hy.mul (hz t ht).1).mono (hz t ht).2⟩

/-- C36 for operators whose terms repeat no creation index and no annihilation index and have at most 39 ladder
operators: `jw_transform` succeeds, leaves `*this` simplified, and the returned qubit operator acts on
occupation-number states exactly as the second-quantised operator does, up to terms with coefficients of at
most 1e-12 that the two simplifications drop.  (The full statement, for every operator, is false: see
`C36_refuted_repeated_index` and `C36_refuted_forty`.) -/
theorem C36_jordan_wigner_partial (o : DescSort) (A : SQOperator) (hd : A.Distinct)
    (hl : ∀ t ∈ A, t.2.1.length + t.2.2.length ≤ 39) :
    ∃ (Q : QubitOperator) (R DA : SQOperator) (DQ : QubitOperator), jwTransform o A false = .ok (Q, R) ∧ simplify o A = .ok R ∧
      SQOperator.op A = Q.op + QubitOperator.op DQ + SQOperator.op DA ∧ Q.op = Q.opLR ∧
      (∀ t ∈ Q, t.2.Canonical ∧ 1e-12 < ‖t.1‖) ∧ (Q.map Prod.snd).Nodup ∧
      QubitOperator.Negligible DQ ∧ (DA.map Prod.snd).Nodup ∧ (∀ t ∈ DA, SQTerm.Descending t ∧ ‖t.1‖ ≤ 1e-12) := by
  obtain ⟨Q, R, DQ, e1, e2, e3, nQ, hQ, hD, _⟩ := jw_core o A false hd hl
  obtain ⟨R', DA, f1, f2, fd, fn, _, _, f3⟩ := C35_simplify o A
  rw [e2] at f1; cases f1
  have hcan : ∀ {B : QubitOperator}, (∀ t ∈ B, t.2.Canonical) → B.op = B.opLR := by
    intro B hB
    apply op_eq_opLR_of_distinct (fun t ht => canonical_api (hB t ht))
    intro t ht
    exact (hB t ht).sorted.imp (fun h => Nat.ne_of_lt h)
  refine ⟨Q, R, DA, DQ, e1, e2, ?_, hcan nQ.canonical, fun t ht => ⟨nQ.canonical t ht, hQ t ht⟩, Normal.nodup nQ, hD, (by rw [List.map_append] at fn; exact fn.of_append_right), fun t ht => ⟨(fd t (by simp [ht])).1, f3 t ht⟩⟩
  rw [f2, hcan nQ.canonical, hcan (fun t ht => (hD.2 t ht).1), ← e3]
  rfl

/-- C36, qubit excitations: the result denotes the *simplified* operator read with qubit ladder operators. -/
theorem C36_qubit_excitation_partial (o : DescSort) (A : SQOperator) (hd : A.Distinct)
    (hl : ∀ t ∈ A, t.2.1.length + t.2.2.length ≤ 39) :
    ∃ (Q : QubitOperator) (R : SQOperator) (DQ : QubitOperator), jwTransform o A true = .ok (Q, R) ∧ simplify o A = .ok R ∧
      SQOperator.qop R = Q.opLR + QubitOperator.opLR DQ ∧ QubitOperator.Negligible DQ := by
  obtain ⟨Q, R, DQ, e1, e2, e3, nQ, hQ, hD, _⟩ := jw_core o A true hd hl
  exact ⟨Q, R, DQ, e1, e2, e3, hD⟩

/-- a two-body operator meets the hypotheses -/
theorem C36_example : SQOperator.Distinct [(0.5, [2, 3], [1, 0])] ∧
    ∀ t ∈ ([(0.5, [2, 3], [1, 0])] : SQOperator), t.2.1.length + t.2.2.length ≤ 39 := by
  refine ⟨?_, ?_⟩ <;> intro t ht <;> rw [List.mem_singleton.1 ht] <;> simp

theorem coefS_lat {m : ℕ} {A : SQOperator} (h : ∀ t ∈ A, Lat m t.1) (s : Key) : Lat m (coefS A s) := by
  classical
  unfold coefS
  induction A with
  | nil => exact ⟨0, 0, by simp⟩
  | cons t A ih =>
    rw [List.map_cons, List.sum_cons]
    apply Lat.add _ (ih (fun t ht => h t (by simp [ht])))
    split_ifs
    · simpa using h t (by simp)
    · exact ⟨0, 0, by simp⟩

theorem C35_lat (o : DescSort) (A R : SQOperator) (hR : simplify o A = .ok R) {m : ℕ} (hm39 : m ≤ 39) (hz : ∀ t ∈ A, Lat m t.1) :
    (∀ t ∈ R, Lat m t.1) ∧ SQOperator.op R = SQOperator.op A := by
  obtain ⟨A', e, h⟩ := SQOperator.canonicalOrder_ok o A
  rw [simplify_eq o A A' e] at hR; cases hR
  have hA' : ∀ t ∈ A', Lat m t.1 := by
    intro t ht
    obtain ⟨w, hw, hs⟩ := forall2_mem_right h ht
    rcases hs.coef with e | e
    · rw [e]; exact hz w hw
    · rw [e]; obtain ⟨a, b, h⟩ := hz w hw; exact ⟨-a, -b, by push_cast; rw [neg_mul, h]; ring⟩
  have hm : ∀ e ∈ SQOperator.buildMap A', Lat m e.2 := fun e he => by rw [buildMap_value he]; exact coefS_lat hA' _
  refine ⟨?_, ?_⟩
  · intro t ht
    obtain ⟨e, he, rfl⟩ := List.mem_map.1 ht
    exact hm e (List.mem_filter.1 he).1
  · rw [← canonStep_sum h]
    have h3 := (SQOperator.buildMap_facts A').2.2 (fun k => fermiString k.1 k.2)
    unfold SQOperator.op
    rw [← h3, filter_split_sq (fun k => fermiString k.1 k.2) _ (fun e => decide (‖e.2‖ > 1e-12)), List.map_map]
    have : (((SQOperator.buildMap A').filter fun e => !decide (‖e.2‖ > 1e-12)).map fun e => e.2 • fermiString e.1.1 e.1.2).sum = 0 := by
      apply List.sum_eq_zero
      intro x hx
      obtain ⟨e, he, rfl⟩ := List.mem_map.1 hx
      obtain ⟨g1, g2⟩ := List.mem_filter.1 he
      have : e.2 = 0 := (hm e g1).eq_zero hm39 (by simpa using g2)
      rw [this, zero_smul]
    rw [this, add_zero]
    rfl

/-- C36 with coefficients that are multiples of `2^-m` (Gaussian): nothing is dropped as long as `m` plus the number of ladder
operators per term is at most `M ≤ 39`. -/
theorem C36_exact_dyadic_partial (o : DescSort) (A : SQOperator) (qe : Bool) (hd : A.Distinct) (m M : ℕ) (hM : M ≤ 39)
    (hl : ∀ t ∈ A, t.2.1.length + t.2.2.length + m ≤ M) (hz : ∀ t ∈ A, Lat m t.1) (hm : m ≤ 39) :
    ∃ Q R, jwTransform o A qe = .ok (Q, R) ∧ simplify o A = .ok R ∧ (∀ t ∈ Q, t.2.Canonical) ∧
      Q.opLR = (if qe then SQOperator.qop R else SQOperator.op A) ∧ Q.simplify = .ok Q ∧ ∀ t ∈ Q, Lat M t.1 := by
  obtain ⟨Q, R, DQ, e1, e2, e3, nQ, hQ, hD, hex⟩ := jw_core o A qe hd (fun t ht => by have := hl t ht; omega)
  obtain ⟨R', DA, f1, f2, hmem, _⟩ := C35_simplify o A
  rw [e2] at f1; cases f1
  have hcoef := C35_lat o A R e2 hm hz
  have hx := hex m M hM (fun t ht => ⟨hcoef.1 t ht, by
    obtain ⟨_, u, hu, p1, p2⟩ := hmem t (by simp [ht])
    rw [p1.length_eq, p2.length_eq]; exact hl u hu⟩)
  refine ⟨Q, R, e1, e2, nQ.canonical, ?_, ?_, hx.2⟩
  rotate_left
  · rw [(simplify_normal nQ).2, List.filter_eq_self.2]
    intro t ht; simpa using hQ t ht
  rw [hx.1, add_zero] at e3
  cases qe
  · rw [if_neg (by simp), ← hcoef.2, ← e3]; rfl
  · rw [if_pos rfl, ← e3]; rfl

/-- C36: with Gaussian-integer coefficients nothing is dropped: the qubit operator is exactly the second-quantised one. -/
theorem C36_exact_partial (o : DescSort) (A : SQOperator) (qe : Bool) (hd : A.Distinct)
    (hl : ∀ t ∈ A, t.2.1.length + t.2.2.length ≤ 39) (hz : ∀ t ∈ A, ∃ a b : ℤ, t.1 = a + b * Complex.I) :
    ∃ Q R, jwTransform o A qe = .ok (Q, R) ∧ simplify o A = .ok R ∧ (∀ t ∈ Q, t.2.Canonical) ∧
      Q.opLR = (if qe then SQOperator.qop R else SQOperator.op A) ∧ Q.simplify = .ok Q ∧ ∀ t ∈ Q, Lat 39 t.1 :=
  C36_exact_dyadic_partial o A qe hd 0 39 (le_refl _) hl (fun t ht => by obtain ⟨a, b, h⟩ := hz t ht; exact ⟨a, b, by rw [h]; simp⟩) (by omega)

/-! ### C37 -/

/-- C37: the images of two ladder operators satisfy the anticommutation relations, as computed by the API itself:
`Q₁ Q₂ + Q₂ Q₁` simplifies to the identity for `a_p`, `a_p†` and to nothing otherwise. -/
theorem C37_anticommutation (o : DescSort) (b c : Bool) (p q : ℕ) :
    ∃ Q1 Q2 R1 R2 P1 P2, jwTransform o [(1, if b then [p] else [], if b then [] else [p])] false = .ok (Q1, R1) ∧
      jwTransform o [(1, if c then [q] else [], if c then [] else [q])] false = .ok (Q2, R2) ∧
      Q1.op = ladder b p ∧ Q2.op = ladder c q ∧
      Q1.operatorProduct Q2 true true = .ok P1 ∧ Q2.operatorProduct Q1 true true = .ok P2 ∧
      (P1.addOp P2).simplify = .ok (if p = q ∧ b ≠ c then [(1, [])] else []) := by
  have single : ∀ (b : Bool) (p : ℕ), ∃ Q R, jwTransform o [(1, if b then [p] else [], if b then [] else [p])] false = .ok (Q, R) ∧
      Q.op = ladder b p ∧ Q.opLR = ladder b p ∧ (∀ t ∈ Q, t.2.Canonical) ∧ ∀ t ∈ Q, Lat 1 t.1 := by
    intro b p
    obtain ⟨Q, R, e1, e2, e3, e4, hQ, e5⟩ := C36_exact_partial o [(1, if b then [p] else [], if b then [] else [p])] false
      (by intro t ht; rw [List.mem_singleton.1 ht]; cases b <;> simp)
      (by intro t ht; rw [List.mem_singleton.1 ht]; cases b <;> simp)
      (by intro t ht; rw [List.mem_singleton.1 ht]; exact ⟨1, 0, by simp⟩)
    have ho : Q.opLR = ladder b p := by
      rw [e4]; cases b <;> simp [SQOperator.op, fermiString]
    have hcan : Q.op = Q.opLR := by
      apply op_eq_opLR_of_distinct (fun t ht => canonical_api (e3 t ht))
      intro t ht
      exact (e3 t ht).sorted.imp (fun h => Nat.ne_of_lt h)
    refine ⟨Q, R, e1, hcan.trans ho, ho, e3, ?_⟩
    have hn : Q.simplify = (ladQ false b p).simplify := C20_normal_form Q (ladQ false b p)
      (fun t ht => canonical_api (e3 t ht)) (isPauli_of_circuits (ladQ_pauli false b p)) (by rw [ho, ladQ_opLR]; rfl)
    obtain ⟨S, g1, g2, g3, g4⟩ := QubitOperator.simplify_lat (ladQ_pauli false b p) (ladQ_lat false b p) (by omega)
    obtain ⟨S', k1, k2, k3, k4⟩ := QubitOperator.simplify_lat (fun t ht => (e3 t ht).pauli) e5 (le_refl 39)
    have : S' = S := by rw [hn, g1] at k1; cases k1; rfl
    subst this
    rw [hQ] at k1; cases k1
    exact g4
  obtain ⟨Q1, R1, a1, a2, a3, a4, a5⟩ := single b p
  obtain ⟨Q2, R2, b1, b2, b3, b4, b5⟩ := single c q
  obtain ⟨P1, c1, c2, c3, c4⟩ := product_lat (fun t ht => (a4 t ht).pauli) (fun t ht => (b4 t ht).pauli) a5 b5 (by omega)
  obtain ⟨P2, d1, d2, d3, d4⟩ := product_lat (fun t ht => (b4 t ht).pauli) (fun t ht => (a4 t ht).pauli) b5 a5 (by omega)
  refine ⟨Q1, Q2, R1, R2, P1, P2, a1, b1, a2, b2, c1, d1, ?_⟩
  have hp : ∀ t ∈ P1.addOp P2, PauliCircuit t.2 := by
    intro t ht
    rw [addOp_eq] at ht
    rcases List.mem_append.1 ht with h | h
    · exact c3 t h
    · exact d3 t h
  have ho : (P1.addOp P2).opLR = ladder b p * ladder c q + ladder c q * ladder b p := by
    rw [addOp_eq, opLR_app, c2, d2, a3, b3]
  split_ifs with h
  · obtain ⟨rfl, hbc⟩ := h
    have e : c = !b := by cases b <;> cases c <;> simp_all
    subst e
    rw [ladder_anticomm_self] at ho
    have hI : QubitOperator.IsPauli [((1 : ℂ), ([] : Circuit))] := by
      intro t ht; rw [List.mem_singleton.1 ht]; intro g hg; simp at hg
    rw [C20_normal_form _ [((1 : ℂ), ([] : Circuit))] (isPauli_of_circuits hp) hI (by rw [ho]; simp [QubitOperator.opLR, Circuit.opLR])]
    have hnorm : (1 : ℝ) > 1e-12 := by norm_num
    simp [QubitOperator.simplify, QubitOperator.canonicalOrder, C18_empty, QubitOperator.buildMap, QubitOperator.mapAdd, pure, Except.pure, bind, Except.bind]
    norm_num
  · have hz : ladder b p * ladder c q + ladder c q * ladder b p = 0 := by
      by_cases e : p = q
      · subst e
        have : b = c := by by_contra hb; exact h ⟨rfl, hb⟩
        subst this
        rw [ladder_sq, add_zero]
      · rw [ladder_anticomm_ne b c e, neg_add_cancel]
    rw [C20_normal_form _ [] (isPauli_of_circuits hp) (by intro t ht; simp at ht) (by rw [ho, hz]; rfl)]
    rfl

/-! ### C36: where the full statement fails -/

theorem ladQ_square_simplify (b : Bool) (p : ℕ) : (ladQ false b p).operatorProduct (ladQ false b p) true true = .ok [] := by
  obtain ⟨R, e1, e2, e3, e4⟩ := product_lat (ladQ_pauli false b p) (ladQ_pauli false b p) (ladQ_lat false b p) (ladQ_lat false b p) (by omega)
  obtain ⟨A1, g1, g2, g3, g4⟩ := QubitOperator.simplify_lat (ladQ_pauli false b p) (ladQ_lat false b p) (by omega)
  have hp : (A1.products (ladQ false b p)).IsPauli := by
    apply isPauli_of_circuits
    intro t ht g hg
    unfold QubitOperator.products at ht
    obtain ⟨l, hl, ht⟩ := List.mem_flatMap.1 ht
    obtain ⟨r, hr, rfl⟩ := List.mem_map.1 ht
    rw [addCircuit_eq, addCircuit_eq, List.nil_append] at hg
    rcases List.mem_append.1 hg with h | h
    · exact (g3.canonical l hl).pauli g h
    · exact ladQ_pauli false b p r hr g h
  unfold QubitOperator.operatorProduct
  rw [if_pos rfl, g1, except_ok_bind, if_pos rfl,
    C20_normal_form _ [] hp (by intro t ht; simp at ht) (by
      rw [opLR_products, g2, ladQ_opLR]
      show ladder b p * ladder b p = _
      rw [ladder_sq]; rfl)]
  rfl

theorem simplify_one (o : DescSort) (cre ann : List ℕ) : ∃ z c a, (z = (1 : ℂ) ∨ z = -1) ∧ simplify o [(1, cre, ann)] = .ok [(z, c, a)] ∧
    c.Perm cre ∧ a.Perm ann ∧ SQTerm.Descending (z, c, a) ∧ z • fermiString c a = fermiString cre ann := by
  obtain ⟨A', e, h⟩ := SQOperator.canonicalOrder_ok o [(1, cre, ann)]
  rcases h with _ | ⟨h1, h2⟩
  cases h2
  rename_i t'
  obtain ⟨z, c, a⟩ := t'
  have hz : z = 1 ∨ z = -1 := h1.coef
  refine ⟨z, c, a, hz, ?_, h1.cre, h1.ann, h1.desc, by simpa using h1.op⟩
  rw [simplify_eq o _ _ e]
  have : (1e-12 : ℝ) < ‖z‖ := by rcases hz with rfl | rfl <;> norm_num
  simp [SQOperator.buildMap, SQOperator.mapAdd, this]

/-- C36 refuted (repeated index): `p† p† q` is the zero operator, but its transform is `± a_q`: once the partial
product vanishes, the next ladder operator starts a new product. -/
theorem C36_refuted_repeated_index (o : DescSort) (p q : ℕ) : ∃ Q R, jwTransform o [(1, [p, p], [q])] false = .ok (Q, R) ∧
    SQOperator.op [(1, [p, p], [q])] = 0 ∧ (Q.opLR = aAnn q ∨ Q.opLR = -aAnn q) ∧ Q.opLR ≠ SQOperator.op [(1, [p, p], [q])] := by
  obtain ⟨z, c, a, hz, e, h1, h2, _, _⟩ := simplify_one o [p, p] [q]
  have hc : c = [p, p] := List.perm_replicate.1 (show c.Perm (List.replicate 2 p) from h1)
  have ha : a = [q] := List.perm_singleton.1 h2
  subst hc; subst ha
  have j1 : jwHelper [] [p, p] true false = .ok [] := by
    unfold jwHelper
    rw [List.foldlM_cons, jwLadder_ok, except_ok_bind, if_pos (show ([] : QubitOperator).length = 0 from rfl), addOp_eq]
    simp only [List.nil_append, pure, Except.pure, except_ok_bind, List.foldlM_cons, List.foldlM_nil, jwLadder_ok]
    rw [if_neg (by simp [ladQ]), ladQ_square_simplify]
    rfl
  have j2 : jwHelper [] [q] false false = .ok (ladQ false false q) := by
    unfold jwHelper
    rw [List.foldlM_cons, jwLadder_ok, except_ok_bind, if_pos (show ([] : QubitOperator).length = 0 from rfl), addOp_eq]
    rfl
  have hl : ∀ t ∈ (ladQ false false q).multCoeffs z, Lat 1 t.1 := by
    intro t ht
    obtain ⟨w, hw, rfl⟩ := List.mem_map.1 ht
    exact (ladQ_lat false false q w hw).mul (Lat.unit4 (by rcases hz with rfl | rfl <;> simp [IsUnit4]))
  have hp : ∀ t ∈ (ladQ false false q).multCoeffs z, PauliCircuit t.2 := by
    intro t ht
    obtain ⟨w, hw, rfl⟩ := List.mem_map.1 ht
    exact ladQ_pauli false false q w hw
  obtain ⟨Q, g1, g2, _, _⟩ := QubitOperator.simplify_lat hp hl (by omega)
  have hop : SQOperator.op [(1, [p, p], [q])] = 0 := by
    simp [SQOperator.op, fermiString, ladder_sq, ← mul_assoc]
  have hQ : Q.opLR = aAnn q ∨ Q.opLR = -aAnn q := by
    rw [g2, opLR_multCoeffs, ladQ_opLR]
    rcases hz with rfl | rfl
    · left; rw [one_smul]; rfl
    · right; rw [Op.neg_one_smul]; rfl
  refine ⟨Q, [(z, [p, p], [q])], ?_, hop, hQ, ?_⟩
  · unfold jwTransform
    rw [e, except_ok_bind]
    simp only [List.foldlM_cons, List.foldlM_nil, j1, j2, except_ok_bind, pure, Except.pure]
    rw [if_neg (by simp)]
    rw [except_ok_bind, addOp_eq, List.nil_append, except_ok_bind, g1]
    rfl
  · rw [hop]
    have hne : aAnn q ≠ 0 := by
      have := lad_string_ne_zero false [] [q] List.nodup_nil (by simp)
      simpa [lad] using this
    rcases hQ with h | h <;> rw [h]
    · exact hne
    · exact neg_ne_zero.2 hne

/-- C36, qubit excitations: `jw_transform(True)` first canonicalises with the *fermionic* sign, so a term whose indices are
not already in canonical order gets the sign of the reordering although qubit ladder operators commute. -/
theorem C36_refuted_qubit_sign (o : DescSort) : ∃ Q R, jwTransform o [(1, [0, 1], [])] true = .ok (Q, R) ∧
    Q.opLR = -SQOperator.qop [(1, [0, 1], [])] ∧ Q.opLR ≠ SQOperator.qop [(1, [0, 1], [])] := by
  obtain ⟨Q, R, e1, e2, _, e4, _⟩ := C36_exact_partial o [(1, [0, 1], [])] true
    (by intro t ht; rw [List.mem_singleton.1 ht]; simp)
    (by intro t ht; rw [List.mem_singleton.1 ht]; simp)
    (by intro t ht; rw [List.mem_singleton.1 ht]; exact ⟨1, 0, by simp⟩)
  obtain ⟨z, c, a, hz, e, h1, h2, hd, ho⟩ := simplify_one o [0, 1] []
  rw [e] at e2; cases e2
  have ha : a = [] := List.perm_nil.1 h2
  subst ha
  have hc : c = [1, 0] := by
    have hs : c.Perm [1, 0] := h1.trans (List.Perm.swap 1 0 [])
    exact List.Perm.eq_of_pairwise (fun a b _ _ h1 h2 => by omega) hd.1 (by simp) hs
  subst hc
  have hz' : z = -1 := by
    rcases hz with rfl | rfl
    · exfalso
      have hn := lad_string_ne_zero false [1, 0] [] (by simp) List.nodup_nil
      rw [one_smul] at ho
      apply hn
      have h2 : fermiString [0, 1] [] = -fermiString [1, 0] [] := by
        have := ladder_same_anticomm true 0 1
        simpa [fermiString] using this
      rw [h2] at ho
      have h3 : fermiString [1, 0] [] = 0 := by
        have : (2 : ℂ) • fermiString [1, 0] [] = 0 := by
          rw [two_smul]; nth_rewrite 1 [ho]; rw [neg_add_cancel]
        exact (smul_eq_zero.1 this).resolve_left two_ne_zero
      exact h3
    · rfl
  subst hz'
  have hQ : Q.opLR = -SQOperator.qop [(1, [0, 1], [])] := by
    rw [e4, if_pos rfl]
    have := qladder_comm true true 1 0 (.inl (by decide))
    simp [SQOperator.qop, qubitString, this, Op.neg_one_smul]
  refine ⟨Q, _, e1, hQ, ?_⟩
  rw [hQ]
  intro h
  have hn := lad_string_ne_zero true [0, 1] [] (by simp) List.nodup_nil
  apply hn
  have e0 : SQOperator.qop [(1, [0, 1], [])] = ([0, 1].map (lad true true)).prod * (([] : List ℕ).map (lad true false)).prod := by
    simp [SQOperator.qop, qubitString, lad]
  rw [← e0]
  have : (2 : ℂ) • SQOperator.qop [(1, [0, 1], [])] = 0 := by
    rw [two_smul]; nth_rewrite 1 [← h]; rw [neg_add_cancel]
  exact (smul_eq_zero.1 this).resolve_left two_ne_zero

end QF
