import Verif.Props.TaperMain
import Verif.Lemmas.Excite

/-! C66: the unitary built by `find_Z2_symmetries`. -/
namespace QF

/-! ### products of commuting reflections -/

/-- `(A + B) / √2` -/
noncomputable def hadPair (t : Op × Op) : Op := (1 / (Real.sqrt 2 : ℂ)) • (t.1 + t.2)

/-- an anticommuting pair of involutions -/
structure AntiPair (t : Op × Op) : Prop where
  sq1 : t.1 * t.1 = 1
  sq2 : t.2 * t.2 = 1
  anti : t.1 * t.2 = -(t.2 * t.1)

/-- pairs that do not interfere -/
def CommPairs (s t : Op × Op) : Prop := Commute s.1 t.1 ∧ Commute s.1 t.2 ∧ Commute s.2 t.1 ∧ Commute s.2 t.2

theorem sqrt2_sq : (1 / (Real.sqrt 2 : ℂ)) * (1 / (Real.sqrt 2 : ℂ)) = 1 / 2 := by
  have : (Real.sqrt 2 : ℂ) * (Real.sqrt 2 : ℂ) = 2 := by
    rw [← Complex.ofReal_mul, Real.mul_self_sqrt (by norm_num)]; norm_num
  rw [div_mul_div_comm, this]; norm_num

theorem pair_ring {R : Type*} [Ring R] {a b : R} (ha : a * a = 1) (hb : b * b = 1) (h : a * b = -(b * a)) : (a + b) * (a + b) = 2 := by
  rw [mul_add, add_mul, add_mul, ha, hb, h, ← one_add_one_eq_two]; abel

theorem hadPair_sq {t : Op × Op} (h : AntiPair t) : hadPair t * hadPair t = 1 := by
  unfold hadPair
  have e2 : (2 : Op) = (2 : ℂ) • (1 : Op) := by rw [two_smul, one_add_one_eq_two]
  rw [smul_mul_smul_comm, sqrt2_sq, pair_ring h.sq1 h.sq2 h.anti, e2, smul_smul]
  norm_num

theorem hadPair_swap {t : Op × Op} (h : AntiPair t) : hadPair t * t.1 = t.2 * hadPair t := by
  unfold hadPair
  rw [smul_mul_assoc, mul_smul_comm, add_mul, mul_add, h.sq1, h.sq2, add_comm]

theorem hadPair_comm {s t : Op × Op} (h : CommPairs s t) : Commute (hadPair s) (hadPair t) := by
  unfold hadPair
  refine Commute.smul_left (Commute.smul_right ?_ _) _
  exact (h.1.add_right h.2.1).add_left (h.2.2.1.add_right h.2.2.2)

theorem CommPairs.symm {s t : Op × Op} (h : CommPairs s t) : CommPairs t s := ⟨h.1.symm, h.2.2.1.symm, h.2.1.symm, h.2.2.2.symm⟩

theorem hadPair_left {s t : Op × Op} (h : CommPairs s t) : Commute (hadPair s) t.1 ∧ Commute (hadPair s) t.2 := by
  unfold hadPair
  exact ⟨Commute.smul_left (h.1.add_left h.2.2.1) _, Commute.smul_left (h.2.1.add_left h.2.2.2) _⟩

theorem pairs_prod : ∀ (l : List (Op × Op)), (∀ t ∈ l, AntiPair t) → l.Pairwise CommPairs →
    (l.map hadPair).prod * (l.map hadPair).prod = 1 ∧ (∀ t ∈ l, (l.map hadPair).prod * t.1 = t.2 * (l.map hadPair).prod) ∧
    ∀ s, (∀ t ∈ l, CommPairs t s) → Commute (l.map hadPair).prod (hadPair s) ∧ Commute (l.map hadPair).prod s.1 ∧ Commute (l.map hadPair).prod s.2
  | [], _, _ => ⟨by simp, fun t ht => by simp at ht, fun s _ => ⟨Commute.one_left _, Commute.one_left _, Commute.one_left _⟩⟩
  | t :: l, ha, hp => by
    rw [List.pairwise_cons] at hp
    obtain ⟨i1, i2, i3⟩ := pairs_prod l (fun s hs => ha s (by simp [hs])) hp.2
    obtain ⟨c1, c2, c3⟩ := i3 t (fun s hs => (hp.1 s hs).symm)
    have hat := ha t (by simp)
    rw [List.map_cons, List.prod_cons]
    refine ⟨?_, ?_, ?_⟩
    · calc hadPair t * (l.map hadPair).prod * (hadPair t * (l.map hadPair).prod)
          = hadPair t * ((l.map hadPair).prod * hadPair t) * (l.map hadPair).prod := by simp only [mul_assoc]
        _ = (hadPair t * hadPair t) * ((l.map hadPair).prod * (l.map hadPair).prod) := by rw [c1.eq]; simp only [mul_assoc]
        _ = 1 := by rw [hadPair_sq hat, i1, one_mul]
    · intro s hs
      rcases List.mem_cons.1 hs with rfl | hs
      · calc hadPair s * (l.map hadPair).prod * s.1 = hadPair s * s.1 * (l.map hadPair).prod := by rw [mul_assoc, c2.eq, mul_assoc]
          _ = s.2 * (hadPair s * (l.map hadPair).prod) := by rw [hadPair_swap hat, mul_assoc]
      · calc hadPair t * (l.map hadPair).prod * s.1 = hadPair t * s.2 * (l.map hadPair).prod := by rw [mul_assoc, i2 s hs, mul_assoc]
          _ = s.2 * (hadPair t * (l.map hadPair).prod) := by rw [(hadPair_left (hp.1 s hs)).2.eq, mul_assoc]
    · intro s hs
      have h1 := hs t (by simp)
      obtain ⟨d1, d2, d3⟩ := i3 s (fun x hx => hs x (by simp [hx]))
      exact ⟨(hadPair_comm h1).mul_left d1, (hadPair_left h1).1.mul_left d2, (hadPair_left h1).2.mul_left d3⟩

/-! ### Hermitian -/

theorem IsAdj.smul {n : ℕ} {A B : Op} (h : IsAdj n A B) (z : ℂ) : IsAdj n (z • A) ((starRingEnd ℂ) z • B) := by
  intro φ ψ
  rw [LinearMap.smul_apply, LinearMap.smul_apply, inner_smul_right', inner_smul_left', Complex.conj_conj, h]

theorem IsAdj.addOps {n : ℕ} {A B A' B' : Op} (h : IsAdj n A A') (h' : IsAdj n B B') : IsAdj n (A + B) (A' + B') := by
  intro φ ψ
  rw [LinearMap.add_apply, LinearMap.add_apply, inner_add_right, inner_add_left, h, h']

theorem IsAdj.opX {n q : ℕ} (hq : q < n) : IsAdj n (opX q) (opX q) := by
  intro φ ψ
  unfold inner
  rw [← sum_flip hq]
  apply Finset.sum_congr rfl
  intro I _
  rw [opX_apply, opX_apply, flipBit_flipBit]

theorem IsAdj.opZ {n q : ℕ} : IsAdj n (opZ q) (opZ q) := by
  intro φ ψ
  unfold inner
  apply Finset.sum_congr rfl
  intro I _
  rw [opZ_apply, opZ_apply]
  cases h : I.testBit q <;> simp

theorem IsAdj.pauliL {n q : ℕ} (hq : q < n) {l : String} (hl : IsIXYZ l) : IsAdj n (QF.pauliL l q) (QF.pauliL l q) := by
  rcases hl with rfl | rfl | rfl | rfl
  · rw [pauliL_I]; exact .one n
  · rw [pauliL_X]; exact .opX hq
  · rw [pauliL_Y]
    have e : QF.opY q = Complex.I • (QF.opX q * QF.opZ q) := by
      rw [opX_opZ, smul_smul]; simp
    have e' : QF.opY q = (starRingEnd ℂ) Complex.I • (QF.opZ q * QF.opX q) := by
      rw [opZ_opX, smul_smul]; simp
    have := ((IsAdj.opX hq).mul (IsAdj.opZ (n := n) (q := q))).smul Complex.I
    rw [← e, ← e'] at this
    exact this
  · rw [pauliL_Z]; exact .opZ

theorem IsAdj.pauliStr {n : ℕ} {f : ℕ → String} (hf : ∀ q, IsIXYZ (f q)) : ∀ m ≤ n, IsAdj n (QF.pauliStr m f) (QF.pauliStr m f)
  | 0, _ => by simpa [QF.pauliStr] using IsAdj.one n
  | m + 1, h => by
    rw [pauliStr_succ]
    have := (IsAdj.pauliStr hf m (by omega)).mul (IsAdj.pauliL (n := n) (q := m) (by omega) (hf m))
    rwa [← (pauliStr_comm_above m f (le_refl m) (f m)).eq] at this

theorem IsAdj.canonical {n : ℕ} {c : Circuit} (hc : c.Canonical) (hn : ∀ g ∈ c, g.target < n) : IsAdj n c.opLR c.opLR := by
  rw [canon_pauliStr hc hn]; exact IsAdj.pauliStr (letterAt_IXYZ hc) n (le_refl n)

theorem IsAdj.hadPair {n : ℕ} {t : Op × Op} (h1 : IsAdj n t.1 t.1) (h2 : IsAdj n t.2 t.2) : IsAdj n (QF.hadPair t) (QF.hadPair t) := by
  have := (h1.addOps h2).smul (1 / (Real.sqrt 2 : ℂ))
  have e : (starRingEnd ℂ) (1 / (Real.sqrt 2 : ℂ)) = 1 / (Real.sqrt 2 : ℂ) := by simp
  rw [e] at this
  exact this

theorem IsAdj.pairs {n : ℕ} : ∀ (l : List (Op × Op)), (∀ t ∈ l, IsAdj n t.1 t.1 ∧ IsAdj n t.2 t.2) → (∀ t ∈ l, AntiPair t) → l.Pairwise CommPairs →
    IsAdj n (l.map QF.hadPair).prod (l.map QF.hadPair).prod
  | [], _, _, _ => by simpa using IsAdj.one n
  | t :: l, h, ha, hp => by
    rw [List.pairwise_cons] at hp
    have ih := IsAdj.pairs l (fun s hs => h s (by simp [hs])) (fun s hs => ha s (by simp [hs])) hp.2
    obtain ⟨_, _, i3⟩ := pairs_prod l (fun s hs => ha s (by simp [hs])) hp.2
    have c := (i3 t (fun s hs => (hp.1 s hs).symm)).1
    rw [List.map_cons, List.prod_cons]
    have := (IsAdj.hadPair (h t (by simp)).1 (h t (by simp)).2).mul ih
    rwa [c.eq] at this

/-! ### nothing is lost in the simplifications -/

theorem simplify_exact {A A0 : QubitOperator} (hA : A.IsPauli) (hA0 : ∀ t ∈ A0, t.2.Canonical) (nd : (A0.map Prod.snd).Nodup)
    (he : A.opLR = A0.opLR) (hn : ∀ t ∈ A0, 1e-12 < ‖t.1‖) :
    ∃ R, A.simplify = .ok R ∧ R.opLR = A.opLR ∧ R.Normal ∧ ∀ t ∈ R, t ∈ A0 := by
  have hA0p : A0.IsPauli := fun t ht => canonical_api (hA0 t ht)
  obtain ⟨R, D, e, op, nR, cD, ndRD, hR, hD, _⟩ := C20_simplify A0 hA0p
  have e' : A.simplify = .ok R := by
    rw [simplify_determined (isPauli_circuits hA) (isPauli_circuits hA0p) he]; exact e
  have hcan : ∀ t ∈ R ++ D, t.2.Canonical := by
    intro t ht
    rcases List.mem_append.1 ht with h | h
    · exact nR.canonical t h
    · exact cD t h
  have hco := coefN_determined hcan hA0 (by rw [opLR_qappend, op])
  have fromA0 : ∀ t ∈ R ++ D, t ∈ A0 ∨ t.1 = 0 := by
    intro t ht
    have h1 := coefN_mem ndRD ht
    by_cases hs : t.2 ∈ A0.map Prod.snd
    · obtain ⟨u, hu, eu⟩ := List.mem_map.1 hs
      have h2 := coefN_mem nd hu
      left
      have : u = t := Prod.ext (by rw [← h2, ← h1, eu, hco]) eu
      rw [← this]; exact hu
    · right
      have := coefN_not_mem hs
      rw [← hco, h1] at this; exact this
  have hD0 : QubitOperator.opLR D = 0 := by
    unfold QubitOperator.opLR
    apply List.sum_eq_zero
    intro x hx
    obtain ⟨t, ht, rfl⟩ := List.mem_map.1 hx
    rcases fromA0 t (by simp [ht]) with h | h
    · exact absurd (hn t h) (not_lt.2 (hD t ht))
    · rw [h, zero_smul]
  refine ⟨R, e', ?_, nR, ?_⟩
  · rw [he, op, hD0, add_zero]
  · intro t ht
    rcases fromA0 t (by simp [ht]) with h | h
    · exact h
    · have := hR t ht; rw [h] at this; norm_num at this

namespace Taper

/-- canonical form of the product of two canonical strings -/
theorem canon_mul {c d : Circuit} (hc : c.Canonical) (hd : d.Canonical) : ∃ k e, IsUnit4 k ∧ Circuit.Canonical e ∧ c.opLR * d.opLR = k • Circuit.opLR e := by
  have ha : ∀ g ∈ c ++ d, ApiGate g ∧ (g.label = "X" ∨ g.label = "Y" ∨ g.label = "Z") := by
    intro g hg
    rcases List.mem_append.1 hg with h | h
    · exact canonical_api hc g h
    · exact canonical_api hd g h
  obtain ⟨k, e, _, h⟩ := C18_canonicalize (c ++ d) ha
  exact ⟨k, e, h.2.1, h.1, by rw [← Circuit.opLR_append]; exact h.2.2.2.1.symm⟩

theorem gX_canonical (s : ℕ) : Circuit.Canonical [gX s] :=
  ⟨fun g hg => by rw [List.mem_singleton] at hg; subst hg; exact ⟨.inl rfl, make_X s 0⟩, by simp⟩

theorem gX_opLR (s : ℕ) : Circuit.opLR [gX s] = opX s := by
  have := make_pauli_op (s := "X") (t := s) (.inl rfl) (make_X s 0)
  rw [Circuit.opLR_cons, Circuit.opLR_nil, mul_one, this, pauliL_X]

theorem unitaryTerm_opLR (g : Circuit) (s : ℕ) : (unitaryTerm (g, s)).opLR = hadPair (g.opLR, opX s) := by
  unfold unitaryTerm QubitOperator.opLR hadPair
  simp only [List.map_cons, List.map_nil, List.sum_cons, List.sum_nil, add_zero]
  rw [gX_opLR, smul_add]

/-- the modulus of the coefficients -/
noncomputable def rho : ℝ := 1 / Real.sqrt 2

theorem rho_norm : ‖(1 / (Real.sqrt 2 : ℂ))‖ = rho := by
  unfold rho
  rw [norm_div, norm_one, Complex.norm_real, Real.norm_of_nonneg (Real.sqrt_nonneg 2)]

theorem rho_pow_gt {k : ℕ} (hk : k ≤ 79) : (1e-12 : ℝ) < rho ^ k := by
  have s0 : 0 < Real.sqrt 2 := Real.sqrt_pos.2 (by norm_num)
  have r0 : 0 < rho := by unfold rho; positivity
  have r1 : rho ≤ 1 := by
    unfold rho
    rw [div_le_one s0]
    rw [show (1 : ℝ) = Real.sqrt 1 by simp]
    exact Real.sqrt_le_sqrt (by norm_num)
  have hsq : rho ^ 2 = 1 / 2 := by
    unfold rho
    rw [div_pow, one_pow, Real.sq_sqrt (by norm_num)]
  have hr : (0.707 : ℝ) < rho := by
    by_contra h
    push Not at h
    have : rho ^ 2 ≤ 0.707 ^ 2 := pow_le_pow_left₀ r0.le h 2
    rw [hsq] at this; norm_num at this
  calc (1e-12 : ℝ) < (1 / 2) ^ 39 * 0.707 := by norm_num
    _ ≤ (rho ^ 2) ^ 39 * rho := by rw [hsq]; exact mul_le_mul_of_nonneg_left hr.le (by positivity)
    _ = rho ^ 79 := by ring
    _ ≤ rho ^ k := pow_le_pow_of_le_one r0.le r1 hk

/-- the accumulated product after `k` factors -/
structure Chain (k : ℕ) (W : QubitOperator) (P : Op) (later : List ℕ) : Prop where
  can : ∀ t ∈ W, t.2.Canonical
  nd : (W.map Prod.snd).Nodup
  op : W.opLR = P
  norm : ∀ t ∈ W, ‖t.1‖ = rho ^ k
  comm : ∀ t ∈ W, ∀ s ∈ later, Commute t.2.opLR (opX s)

theorem isUnit4_norm {k : ℂ} (h : IsUnit4 k) : ‖k‖ = 1 := by rcases h with rfl | rfl | rfl | rfl <;> simp

theorem chain_first {g : Circuit} {s : ℕ} {later : List ℕ} (hg : g.Canonical) (ha : AntiCommute g.opLR (opX s))
    (hc : ∀ x ∈ later, Commute g.opLR (opX x)) : Chain 1 (unitaryTerm (g, s)) (hadPair (g.opLR, opX s)) later := by
  have hne : g ≠ [gX s] := by
    rintro rfl
    unfold AntiCommute at ha
    rw [gX_opLR, opX_sq] at ha
    have h1 : (2 : ℂ) • (1 : Op) = 0 := by rw [two_smul]; nth_rewrite 2 [ha]; exact add_neg_cancel 1
    rcases smul_eq_zero.1 h1 with h2 | h2
    · norm_num at h2
    · exact op_one_ne_zero h2
  refine ⟨?_, by simp [unitaryTerm, hne], unitaryTerm_opLR g s, ?_, ?_⟩
  · intro t ht
    simp only [unitaryTerm, List.mem_cons, List.not_mem_nil, or_false] at ht
    rcases ht with rfl | rfl
    · exact hg
    · exact gX_canonical s
  · intro t ht
    simp only [unitaryTerm, List.mem_cons, List.not_mem_nil, or_false] at ht
    rcases ht with rfl | rfl <;> simp only [rho_norm, pow_one]
  · intro t ht x hx
    simp only [unitaryTerm, List.mem_cons, List.not_mem_nil, or_false] at ht
    rcases ht with rfl | rfl
    · exact hc x hx
    · simp only [gX_opLR]
      by_cases hxs : s = x
      · subst hxs; exact Commute.refl _
      · have := pauliL_comm (s := "X") (s' := "X") hxs; simpa using this

theorem prop_ne {A B : Op} {z : ℂ} (hB : B * B = 1) (hz : z ≠ 0) (hA : A ≠ 0) (h : z • (A * B) = 0) : False := by
  rcases smul_eq_zero.1 h with h | h
  · exact hz h
  · apply hA
    have : A * B * B = A := by rw [mul_assoc, hB, mul_one]
    rw [← this, h, zero_mul]

theorem chain_step {k : ℕ} {W : QubitOperator} {P : Op} {g : Circuit} {s : ℕ} {later : List ℕ} (h : Chain k W P (s :: later)) (hk : k + 1 ≤ 79)
    (hg : g.Canonical) (ha : AntiCommute g.opLR (opX s)) (hc : ∀ x ∈ later, Commute g.opLR (opX x)) :
    ∃ W', W.operatorProduct (unitaryTerm (g, s)) true true = .ok W' ∧ Chain (k + 1) W' (P * hadPair (g.opLR, opX s)) later ∧
      ∀ t ∈ W', ∃ u ∈ W, ∃ z : ℂ, z ≠ 0 ∧ (u.2.opLR * g.opLR = z • t.2.opLR ∨ u.2.opLR * opX s = z • t.2.opLR) := by
  -- the preliminary simplification loses nothing
  have hWp : W.IsPauli := fun t ht => canonical_api (h.can t ht)
  obtain ⟨W1, e1, op1, nW1, mem1⟩ := simplify_exact hWp h.can h.nd rfl (fun t ht => by rw [h.norm t ht]; exact rho_pow_gt (by omega))
  have can1 := nW1.canonical
  have nd1 : (W1.map Prod.snd).Nodup := Normal.nodup nW1
  have hW1p : W1.IsPauli := fun t ht => canonical_api (can1 t ht)
  -- canonical forms of the products
  have ex : ∀ (t : ℂ × Circuit) (d : Circuit), ∃ p : ℂ × Circuit, t.2.Canonical → d.Canonical → IsUnit4 p.1 ∧ Circuit.Canonical p.2 ∧ t.2.opLR * d.opLR = p.1 • Circuit.opLR p.2 := by
    intro t d
    by_cases h1 : t.2.Canonical <;> by_cases h2 : d.Canonical
    · obtain ⟨k, e, a, b, c⟩ := canon_mul h1 h2; exact ⟨(k, e), fun _ _ => ⟨a, b, c⟩⟩
    · exact ⟨(0, []), fun _ h => absurd h h2⟩
    · exact ⟨(0, []), fun h _ => absurd h h1⟩
    · exact ⟨(0, []), fun h _ => absurd h h1⟩
  choose F hF using ex
  set a : ℂ := 1 / (Real.sqrt 2 : ℂ) with haa
  set f : ℂ × Circuit → ℂ × Circuit := fun t => (t.1 * a * (F t g).1, (F t g).2) with hf
  set f' : ℂ × Circuit → ℂ × Circuit := fun t => (t.1 * a * (F t [gX s]).1, (F t [gX s]).2) with hf'
  set A0 : QubitOperator := W1.map f ++ W1.map f' with hA0
  have hX := gX_canonical s
  have spec1 : ∀ t ∈ W1, IsUnit4 (F t g).1 ∧ Circuit.Canonical (F t g).2 ∧ t.2.opLR * g.opLR = (F t g).1 • Circuit.opLR (F t g).2 :=
    fun t ht => hF t g (can1 t ht) hg
  have spec2 : ∀ t ∈ W1, IsUnit4 (F t [gX s]).1 ∧ Circuit.Canonical (F t [gX s]).2 ∧ t.2.opLR * opX s = (F t [gX s]).1 • Circuit.opLR (F t [gX s]).2 := by
    intro t ht
    have := hF t [gX s] (can1 t ht) hX
    rwa [gX_opLR] at this
  have hcan0 : ∀ t ∈ A0, t.2.Canonical := by
    intro t ht
    rcases List.mem_append.1 ht with h | h <;> obtain ⟨u, hu, rfl⟩ := List.mem_map.1 h
    · exact (spec1 u hu).2.1
    · exact (spec2 u hu).2.1
  have hop0 : (W1.products (unitaryTerm (g, s))).opLR = A0.opLR := by
    rw [opLR_products, unitaryTerm_opLR, hA0, opLR_qappend]
    have e1 : QubitOperator.opLR (W1.map f) = a • (W1.opLR * g.opLR) := by
      unfold QubitOperator.opLR
      rw [List.map_map, ← List.sum_map_mul_right, List.smul_sum, List.map_map]
      congr 1
      apply List.map_congr_left
      intro t ht
      simp only [Function.comp, hf]
      rw [mul_smul, ← (spec1 t ht).2.2, smul_mul_assoc, mul_comm t.1, mul_smul]
    have e2 : QubitOperator.opLR (W1.map f') = a • (W1.opLR * opX s) := by
      unfold QubitOperator.opLR
      rw [List.map_map, ← List.sum_map_mul_right, List.smul_sum, List.map_map]
      congr 1
      apply List.map_congr_left
      intro t ht
      simp only [Function.comp, hf']
      rw [mul_smul, ← (spec2 t ht).2.2, smul_mul_assoc, mul_comm t.1, mul_smul]
    rw [e1, e2, ← smul_add, ← mul_add]
    unfold hadPair
    rw [mul_smul_comm]
  -- all strings are different
  have gsq := canon_sq hg
  have xsq := opX_sq s
  have wcomm : ∀ t ∈ W1, Commute t.2.opLR (opX s) := fun t ht => h.comm t (mem1 t ht) s (by simp)
  have inj : ∀ t ∈ W1, ∀ t' ∈ W1, ∀ (b : Op) (z z' : ℂ) (c : Circuit), b * b = 1 → IsUnit4 z → IsUnit4 z' → t.2.opLR * b = z • c.opLR → t'.2.opLR * b = z' • c.opLR → t.2 = t'.2 := by
    intro t ht t' ht' b z z' c hb hz hz' e e'
    refine canon_inj (k := z' * z⁻¹) (can1 t ht) (can1 t' ht') ?_
    have h1 : t.2.opLR = z • (c.opLR * b) := by rw [← smul_mul_assoc, ← e, mul_assoc, hb, mul_one]
    have h2 : t'.2.opLR = z' • (c.opLR * b) := by rw [← smul_mul_assoc, ← e', mul_assoc, hb, mul_one]
    rw [h1, h2, smul_smul, mul_assoc, inv_mul_cancel₀ hz.ne_zero, mul_one]
  have ndW1 : W1.Nodup := List.Nodup.of_map _ nd1
  have key1 : ∀ t ∈ W1, ∀ t' ∈ W1, t.2 = t'.2 → t = t' := fun t ht t' ht' e => List.inj_on_of_nodup_map nd1 ht ht' e
  have nd0 : (A0.map Prod.snd).Nodup := by
    rw [hA0, List.map_append, List.map_map, List.map_map, List.nodup_append]
    refine ⟨?_, ?_, ?_⟩
    · refine (List.nodup_map_iff_inj_on ndW1).2 ?_
      intro t ht t' ht' e
      have e' : (F t g).2 = (F t' g).2 := e
      have s1 := spec1 t ht; have s2 := spec1 t' ht'
      rw [← e'] at s2
      exact key1 t ht t' ht' (inj t ht t' ht' g.opLR _ _ _ gsq s1.1 s2.1 s1.2.2 s2.2.2)
    · refine (List.nodup_map_iff_inj_on ndW1).2 ?_
      intro t ht t' ht' e
      have e' : (F t [gX s]).2 = (F t' [gX s]).2 := e
      have s1 := spec2 t ht; have s2 := spec2 t' ht'
      rw [← e'] at s2
      exact key1 t ht t' ht' (inj t ht t' ht' (opX s) _ _ _ xsq s1.1 s2.1 s1.2.2 s2.2.2)
    · intro x hx y hy hxy
      obtain ⟨t, ht, rfl⟩ := List.mem_map.1 hx
      obtain ⟨t', ht', rfl⟩ := List.mem_map.1 hy
      have e' : (F t g).2 = (F t' [gX s]).2 := hxy
      have s1 := spec1 t ht; have s2 := spec2 t' ht'
      rw [← e'] at s2
      -- conjugation by X distinguishes them
      have c1 : opX s * (t.2.opLR * g.opLR) * opX s = -(t.2.opLR * g.opLR) := by
        have ha' : g.opLR * opX s = -(opX s * g.opLR) := ha
        calc opX s * (t.2.opLR * g.opLR) * opX s = (opX s * t.2.opLR) * (g.opLR * opX s) := by simp only [mul_assoc]
          _ = (t.2.opLR * opX s) * -(opX s * g.opLR) := by rw [ha', (wcomm t ht).eq]
          _ = -(t.2.opLR * (opX s * opX s) * g.opLR) := by
              have : ∀ p q r : Op, (p * q) * -(q * r) = -(p * (q * q) * r) := by
                intro p q r
                apply Op.ext'; intro ψ I; simp
              exact this _ _ _
          _ = _ := by rw [xsq, mul_one]
      have c2 : opX s * (t'.2.opLR * opX s) * opX s = t'.2.opLR * opX s := by
        rw [← mul_assoc, ← (wcomm t' ht').eq, mul_assoc, mul_assoc, ← mul_assoc (opX s) (opX s), xsq, one_mul]
      rw [s1.2.2] at c1
      rw [s2.2.2] at c2
      set C := Circuit.opLR (F t g).2 with hC
      have h1 : opX s * C * opX s = -C := by
        have : (F t g).1 • (opX s * C * opX s) = (F t g).1 • (-C) := by
          rw [mul_smul_comm, smul_mul_assoc] at c1
          rw [c1]; module
        have := congrArg (fun A : Op => (F t g).1⁻¹ • A) this
        simpa [smul_smul, inv_mul_cancel₀ s1.1.ne_zero] using this
      have h2 : opX s * C * opX s = C := by
        have : (F t' [gX s]).1 • (opX s * C * opX s) = (F t' [gX s]).1 • C := by
          rw [mul_smul_comm, smul_mul_assoc] at c2
          exact c2
        have := congrArg (fun A : Op => (F t' [gX s]).1⁻¹ • A) this
        simpa [smul_smul, inv_mul_cancel₀ s2.1.ne_zero] using this
      have h3 : (2 : ℂ) • C = 0 := by
        rw [two_smul]; nth_rewrite 1 [← h2]; rw [h1]; exact neg_add_cancel C
      rcases smul_eq_zero.1 h3 with h4 | h4
      · norm_num at h4
      · exact opLR_ne_zero s1.2.1 h4
  have norm0 : ∀ t ∈ A0, ‖t.1‖ = rho ^ (k + 1) := by
    intro t ht
    rcases List.mem_append.1 ht with hh | hh <;> obtain ⟨u, hu, rfl⟩ := List.mem_map.1 hh
    · simp only [hf]
      rw [norm_mul, norm_mul, isUnit4_norm (spec1 u hu).1, mul_one, h.norm u (mem1 u hu), haa, rho_norm, pow_succ]
    · simp only [hf']
      rw [norm_mul, norm_mul, isUnit4_norm (spec2 u hu).1, mul_one, h.norm u (mem1 u hu), haa, rho_norm, pow_succ]
  have comm0 : ∀ t ∈ A0, ∀ x ∈ later, Commute t.2.opLR (opX x) := by
    have xx : ∀ x, Commute (opX s) (opX x) := by
      intro x
      by_cases hxs : s = x
      · subst hxs; exact Commute.refl _
      · have := pauliL_comm (s := "X") (s' := "X") hxs; simpa using this
    intro t ht x hx
    rcases List.mem_append.1 ht with hh | hh <;> obtain ⟨u, hu, rfl⟩ := List.mem_map.1 hh
    · have s1 := spec1 u hu
      have e : Circuit.opLR (F u g).2 = (F u g).1⁻¹ • (u.2.opLR * g.opLR) := by
        rw [s1.2.2, smul_smul, inv_mul_cancel₀ s1.1.ne_zero, one_smul]
      simp only [hf]
      rw [e]
      exact Commute.smul_left ((h.comm u (mem1 u hu) x (by simp [hx])).mul_left (hc x hx)) _
    · have s1 := spec2 u hu
      have e : Circuit.opLR (F u [gX s]).2 = (F u [gX s]).1⁻¹ • (u.2.opLR * opX s) := by
        rw [s1.2.2, smul_smul, inv_mul_cancel₀ s1.1.ne_zero, one_smul]
      simp only [hf']
      rw [e]
      exact Commute.smul_left ((h.comm u (mem1 u hu) x (by simp [hx])).mul_left (xx x)) _
  obtain ⟨R, e2, op2, nR, mem2⟩ := simplify_exact (products_isPauli hW1p (unitaryTerm_isPauli hg s)) hcan0 nd0 hop0
    (fun t ht => by rw [norm0 t ht]; exact rho_pow_gt hk)
  refine ⟨R, ?_, ⟨nR.canonical, Normal.nodup nR, ?_, fun t ht => norm0 t (mem2 t ht), fun t ht => comm0 t (mem2 t ht)⟩, ?_⟩
  · unfold QubitOperator.operatorProduct
    rw [if_pos rfl, e1, except_ok_bind, if_pos rfl, e2]
  · rw [op2, opLR_products, op1, h.op, unitaryTerm_opLR]
  · intro t ht
    rcases List.mem_append.1 (mem2 t ht) with hh | hh <;> obtain ⟨u, hu, rfl⟩ := List.mem_map.1 hh
    · exact ⟨u, mem1 u hu, _, (spec1 u hu).1.ne_zero, .inl (spec1 u hu).2.2⟩
    · exact ⟨u, mem1 u hu, _, (spec2 u hu).1.ne_zero, .inr (spec2 u hu).2.2⟩

/-- the pairs of operators of generators and qubits -/
noncomputable def opPair (t : Circuit × ℕ) : Op × Op := (t.1.opLR, opX t.2)

theorem chain_fold : ∀ (l : List (Circuit × ℕ)) (k : ℕ) (W : QubitOperator) (P : Op), Chain k W P (l.map Prod.snd) → k + l.length ≤ 79 →
    (∀ t ∈ l, t.1.Canonical ∧ AntiCommute t.1.opLR (opX t.2)) → l.Pairwise (fun t u => Commute t.1.opLR (opX u.2)) →
    ∃ W', (l.map unitaryTerm).foldlM (fun U op => U.operatorProduct op true true) W = .ok W' ∧ Chain (k + l.length) W' (P * ((l.map opPair).map hadPair).prod) []
  | [], k, W, P, h, _, _, _ => ⟨W, rfl, by simpa using h⟩
  | t :: l, k, W, P, h, hk, ha, hp => by
    rw [List.pairwise_cons] at hp
    rw [List.length_cons] at hk
    obtain ⟨W1, e1, c1, _⟩ := chain_step (g := t.1) (s := t.2) (later := l.map Prod.snd) h (by omega) (ha t (by simp)).1 (ha t (by simp)).2 (by
      intro x hx
      obtain ⟨u, hu, rfl⟩ := List.mem_map.1 hx
      exact hp.1 u hu)
    obtain ⟨W2, e2, c2⟩ := chain_fold l (k + 1) W1 _ c1 (by omega) (fun u hu => ha u (by simp [hu])) hp.2
    refine ⟨W2, ?_, ?_⟩
    · rw [List.map_cons, List.foldlM_cons]
      show (W.operatorProduct (unitaryTerm t) true true >>= _) = _
      rw [show unitaryTerm t = unitaryTerm (t.1, t.2) from rfl, e1, except_ok_bind, e2]
    · rw [List.length_cons, show k + (l.length + 1) = k + 1 + l.length by omega, List.map_cons, List.map_cons, List.prod_cons, ← mul_assoc]
      exact c2

end Taper
end QF
