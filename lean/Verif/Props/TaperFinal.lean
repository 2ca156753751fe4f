import Verif.Props.TaperSep

/-! C67: the theorem about `taper_operator`. -/
namespace QF

/-- `simplify` keeps exactly the terms of the canonical expansion above the threshold -/
theorem simplify_perm {A A0 : QubitOperator} (hA : A.IsPauli) (hA0 : ∀ t ∈ A0, t.2.Canonical) (nd : (A0.map Prod.snd).Nodup)
    (he : A.opLR = A0.opLR) :
    ∃ R : QubitOperator, A.simplify = .ok R ∧ R.Normal ∧ R.Perm (A0.filter fun t => decide (1e-12 < ‖t.1‖)) := by
  have hA0p : A0.IsPauli := fun t ht => canonical_api (hA0 t ht)
  obtain ⟨R, D, e, op, nR, cD, ndRD, hR, hD, _⟩ := C20_simplify A0 hA0p
  have e' : A.simplify = .ok R := by
    rw [simplify_determined (isPauli_circuits hA) (isPauli_circuits hA0p) he]; exact e
  have hcan : ∀ t ∈ R ++ D, t.2.Canonical := by
    intro t ht
    rcases List.mem_append.1 ht with h | h
    · exact nR.canonical t h
    · exact cD t h
  have hco := coefN_determined hcan hA0 (by rw [opLR_qappend, op])
  refine ⟨R, e', nR, ?_⟩
  rw [List.perm_ext_iff_of_nodup (List.Nodup.of_map _ (Normal.nodup nR)) ((List.Nodup.of_map _ nd).filter _)]
  intro t
  rw [List.mem_filter, decide_eq_true_eq]
  constructor
  · intro ht
    have hb := hR t ht
    refine ⟨?_, hb⟩
    have h1 := coefN_mem ndRD (t := t) (by simp [ht])
    by_cases hs : t.2 ∈ A0.map Prod.snd
    · obtain ⟨u, hu, eu⟩ := List.mem_map.1 hs
      have h2 := coefN_mem nd hu
      have : u = t := Prod.ext (by rw [← h2, ← h1, eu, hco]) eu
      rw [← this]; exact hu
    · have := coefN_not_mem hs
      rw [← hco, h1] at this
      rw [this] at hb; norm_num at hb
  · rintro ⟨ht, hb⟩
    have h2 := coefN_mem nd ht
    by_cases hs : t.2 ∈ (R ++ D).map Prod.snd
    · obtain ⟨u, hu, eu⟩ := List.mem_map.1 hs
      have h1 := coefN_mem ndRD hu
      have hut : u = t := Prod.ext (by rw [← h1, ← h2, eu, hco]) eu
      rw [hut] at hu
      rcases List.mem_append.1 hu with h | h
      · exact h
      · exact absurd hb (not_lt.2 (hD t h))
    · have := coefN_not_mem hs
      rw [hco, h2] at this
      rw [this] at hb; norm_num at hb

namespace Taper

theorem findZ2_full (o : SQOperator.DescSort) (H : QubitOperator) (hH : ∀ t ∈ H, t.2.Canonical) (least : Bool)
    (hx : ∀ c, IsXSymmetry H c → c = []) {fuel : ℕ} (hf : 2 * H.numQubits + 1 ≤ fuel) {S : Symmetries} (hS : findZ2 o fuel H least = .ok S)
    (h79 : S.generators.length ≤ 79) : SymmetryGenerators H S.generators ∧ TaperPairs H.numQubits S.generators S.sigmaX ∧
      Chain S.generators.length S.unitary (((S.generators.zip S.sigmaX).map opPair).map hadPair).prod [] ∧ Sep S.unitary S.generators [] := by
  obtain ⟨hs, hp, ch⟩ := findZ2_chain o H hH least hx hf hS h79
  refine ⟨hs, hp, ch, ?_⟩
  obtain ⟨G, hG, e⟩ := findZ2_shape o H least fuel (by omega)
  have hs' := SymmetryGenerators.perm (gens_perm o H.numQubits G least) (generators_spec H hH hG)
  rw [e] at hS
  rcases finish_ok (gens := (o.perm (sigmaX H.numQubits G least)).map fun r => genc H.numQubits (G.e r))
      (sig := (o.perm (sigmaX H.numQubits G least)).map fun r => (sigmaX H.numQubits G least).getD r 0) (by simp)
      (fun g hg => (hs'.symmetry g hg).canonical) with ⟨h1, h2⟩ | ⟨S', h1, h2, h3, h4, h5⟩
  · rw [h2] at hS; cases hS
  · have hSS : S' = S := by rw [h1] at hS; cases hS; rfl
    subst hSS
    rw [← h2, ← h3] at hS
    exact finish_sep hs hp h79 hS

/-- conjugation of a string that commutes with the generators is again a string -/
theorem conj_string : ∀ (l : List (Circuit × ℕ)), (∀ t ∈ l, t.1.Canonical ∧ AntiPair (opPair t)) → l.Pairwise (fun t u => CommPairs (opPair t) (opPair u)) →
    ∀ s : Circuit, s.Canonical → (∀ t ∈ l, Commute s.opLR t.1.opLR) →
    ∃ z c, IsUnit4 z ∧ Circuit.Canonical c ∧ ((l.map opPair).map hadPair).prod * s.opLR * ((l.map opPair).map hadPair).prod = z • Circuit.opLR c
  | [], _, _, s, hs, _ => ⟨1, s, .inl rfl, hs, by simp⟩
  | t :: l, ha, hp, s, hs, hc => by
    rw [List.pairwise_cons] at hp
    obtain ⟨z, c, hz, hcan, e⟩ := conj_string l (fun u hu => ha u (by simp [hu])) hp.2 s hs (fun u hu => hc u (by simp [hu]))
    obtain ⟨p1, p2, p3⟩ := pairs_prod (l.map opPair) (by
      intro u hu
      obtain ⟨v, hv, rfl⟩ := List.mem_map.1 hu
      exact (ha v (by simp [hv])).2) (List.pairwise_map.2 hp.2)
    obtain ⟨q1, q2, q3⟩ := p3 (opPair t) (by
      intro u hu
      obtain ⟨v, hv, rfl⟩ := List.mem_map.1 hu
      exact (hp.1 v hv).symm)
    set P := ((l.map opPair).map hadPair).prod with hP
    obtain ⟨htc, hta⟩ := ha t (by simp)
    -- the inner string commutes with the generator
    have cg : Commute (P * s.opLR * P) t.1.opLR := (Commute.mul_left (Commute.mul_left q2 (hc t (by simp))) q2)
    rw [e] at cg
    have cg' : Commute (Circuit.opLR c) t.1.opLR := by
      have := Commute.smul_left cg z⁻¹
      rwa [smul_smul, inv_mul_cancel₀ hz.ne_zero, one_smul] at this
    have hh : hadPair (opPair t) * hadPair (opPair t) = 1 := hadPair_sq hta
    have main : ((List.map opPair (t :: l)).map hadPair).prod * s.opLR * ((List.map opPair (t :: l)).map hadPair).prod =
        z • (hadPair (opPair t) * Circuit.opLR c * hadPair (opPair t)) := by
      rw [List.map_cons, List.map_cons, List.prod_cons, ← hP]
      calc hadPair (opPair t) * P * s.opLR * (hadPair (opPair t) * P) = hadPair (opPair t) * P * s.opLR * (P * hadPair (opPair t)) := by rw [q1.eq]
        _ = hadPair (opPair t) * (P * s.opLR * P) * hadPair (opPair t) := by simp only [mul_assoc]
        _ = _ := by rw [e, mul_smul_comm, smul_mul_assoc]
    rw [main]
    have hcj := canon_conj hcan (m := "X") (.inl rfl) t.2
    rw [pauliL_X] at hcj
    have hcase : eps (letterAt c t.2) "X" = 1 ∨ eps (letterAt c t.2) "X" = -1 := by unfold eps; split_ifs <;> simp
    have xsq := opX_sq t.2
    rcases hcase with he | he
    · -- commutes with X
      rw [he, one_smul] at hcj
      have cx : Commute (Circuit.opLR c) (opX t.2) := by
        have : opX t.2 * (opX t.2 * Circuit.opLR c * opX t.2) = opX t.2 * Circuit.opLR c := by rw [hcj]
        rw [← mul_assoc, ← mul_assoc, xsq, one_mul] at this
        exact this
      have ch : Commute (hadPair (opPair t)) (Circuit.opLR c) := by
        unfold hadPair
        exact Commute.smul_left ((cg'.symm).add_left cx.symm) _
      refine ⟨z, c, hz, hcan, ?_⟩
      rw [ch.eq, mul_assoc, hh, mul_one]
    · have ax : opX t.2 * Circuit.opLR c = -(Circuit.opLR c * opX t.2) := by
        have : opX t.2 * Circuit.opLR c * opX t.2 * opX t.2 = (-1 : ℂ) • Circuit.opLR c * opX t.2 := by rw [hcj, he]
        rw [mul_assoc _ (opX t.2) (opX t.2), xsq, mul_one] at this
        rw [this]
        apply Op.ext'; intro ψ I; simp
      obtain ⟨k1, c1, hk1, hc1, e1⟩ := canon_mul hcan htc
      obtain ⟨k2, c2, hk2, hc2, e2⟩ := canon_mul hc1 (gX_canonical t.2)
      rw [gX_opLR] at e2
      have anti : t.1.opLR * opX t.2 = -(opX t.2 * t.1.opLR) := hta.anti
      have gsq : t.1.opLR * t.1.opLR = 1 := hta.sq1
      have key : hadPair (opPair t) * Circuit.opLR c * hadPair (opPair t) = Circuit.opLR c * t.1.opLR * opX t.2 := by
        have gen : ∀ (g x C : Op), g * g = 1 → x * x = 1 → g * x = -(x * g) → Commute C g → x * C = -(C * x) →
            (1 / 2 : ℂ) • ((g + x) * C * (g + x)) = C * g * x := by
          intro g x C hg hx hgx hC hxC
          have h1 : (g + x) * C = C * (g - x) := by
            rw [add_mul, hxC, ← hC.eq, mul_sub, sub_eq_add_neg]
          rw [h1, mul_assoc]
          have h2 : (g - x) * (g + x) = (2 : ℂ) • (g * x) := by
            rw [sub_mul, mul_add, mul_add, hg, hx]
            have h3 : x * g = -(g * x) := by rw [hgx, neg_neg]
            rw [h3]; module
          rw [h2, mul_smul_comm, smul_smul, ← mul_assoc]
          norm_num
        unfold hadPair opPair
        rw [smul_mul_assoc, smul_mul_smul_comm, sqrt2_sq]
        exact gen _ _ _ gsq xsq anti cg' ax
      refine ⟨z * (k1 * k2), c2, hz.mul (hk1.mul hk2), hc2, ?_⟩
      rw [key, e1, smul_mul_assoc, e2, smul_smul, smul_smul, mul_assoc]

theorem canon_swap {c d : Circuit} (hc : c.Canonical) (hd : d.Canonical) : ∃ ε : ℂ, (ε = 1 ∨ ε = -1) ∧ c.opLR * d.opLR = ε • (d.opLR * c.opLR) := by
  have h1 : ∀ (c : Circuit), ∃ n, ∀ g ∈ c, g.target < n := by
    intro c
    induction c with
    | nil => exact ⟨0, by simp⟩
    | cons g c ih =>
      obtain ⟨n, h⟩ := ih
      refine ⟨max n (g.target + 1), fun x hx => ?_⟩
      rcases List.mem_cons.1 hx with rfl | hx
      · omega
      · have := h x hx; omega
  obtain ⟨n, hn⟩ := h1 (c ++ d)
  rw [canon_pauliStr hc (n := n) (fun g hg => hn g (by simp [hg])), canon_pauliStr hd (n := n) (fun g hg => hn g (by simp [hg]))]
  refine ⟨_, ?_, pauliStr_swap n (letterAt_IXYZ hc) (letterAt_IXYZ hd)⟩
  unfold bsgn; split_ifs <;> simp

/-- an operator commutes with a string only if each of its strings does -/
theorem term_commute {F : QubitOperator} (hF : ∀ t ∈ F, t.2.Canonical) (nd : (F.map Prod.snd).Nodup) {g : Circuit} (hg : g.Canonical)
    (h : Commute F.opLR g.opLR) : ∀ t ∈ F, t.1 ≠ 0 → Commute t.2.opLR g.opLR := by
  have ex : ∀ t : ℂ × Circuit, ∃ ε : ℂ, t ∈ F → (ε = 1 ∨ ε = -1) ∧ t.2.opLR * g.opLR = ε • (g.opLR * t.2.opLR) := by
    intro t
    by_cases ht : t ∈ F
    · obtain ⟨ε, h⟩ := canon_swap (hF t ht) hg; exact ⟨ε, fun _ => h⟩
    · exact ⟨0, fun h => absurd h ht⟩
  choose ε hε using ex
  have gsq := canon_sq hg
  set G : QubitOperator := F.map fun t => (t.1 * ε t, t.2) with hG
  have hGop : G.opLR = F.opLR := by
    have h1 : g.opLR * G.opLR = F.opLR * g.opLR := by
      unfold QubitOperator.opLR
      rw [hG, List.map_map, ← List.sum_map_mul_left, ← List.sum_map_mul_right]
      congr 1
      apply List.map_congr_left
      intro t ht
      simp only [Function.comp]
      rw [smul_mul_assoc, (hε t ht).2, smul_smul, mul_smul_comm]
    rw [h.eq] at h1
    have h2 : g.opLR * (g.opLR * G.opLR) = g.opLR * (g.opLR * F.opLR) := by rw [h1]
    rwa [← mul_assoc, ← mul_assoc, gsq, one_mul, one_mul] at h2
  intro t ht h0
  have hGc : ∀ u ∈ G, u.2.Canonical := by
    intro u hu
    obtain ⟨v, hv, rfl⟩ := List.mem_map.1 hu
    exact hF v hv
  have ndG : (G.map Prod.snd).Nodup := by
    rw [hG, List.map_map]; exact nd
  have c1 := coefN_mem nd ht
  have c2 := coefN_mem ndG (t := (t.1 * ε t, t.2)) (List.mem_map.2 ⟨t, ht, rfl⟩)
  have c3 := coefN_determined hGc hF hGop t.2
  simp only at c2
  rw [c2, c1] at c3
  have : ε t = 1 := by
    have : t.1 * (ε t - 1) = 0 := by rw [mul_sub, c3, mul_one, sub_self]
    rcases mul_eq_zero.1 this with h | h
    · exact absurd h h0
    · exact sub_eq_zero.1 h
  have := (hε t ht).2
  rw [‹ε t = 1›, one_smul] at this
  exact this

theorem opLR_pairs {U : QubitOperator} (F : ℂ × Circuit → ℂ × Circuit → ℂ × Circuit) : ∀ (K : QubitOperator),
    (∀ s ∈ K, ∀ w ∈ U, s.2.opLR * w.2.opLR = (F s w).1 • (F s w).2.opLR) →
    QubitOperator.opLR (K.flatMap fun s => U.map fun w => (s.1 * w.1 * (F s w).1, (F s w).2)) = K.opLR * U.opLR
  | [], _ => by
    show QubitOperator.opLR [] = QubitOperator.opLR [] * _
    simp [QubitOperator.opLR]
  | s :: K, h => by
    have ih := opLR_pairs F K (fun s hs => h s (by simp [hs]))
    rw [List.flatMap_cons, opLR_qappend, ih]
    have : QubitOperator.opLR (s :: K) = s.1 • s.2.opLR + QubitOperator.opLR K := by simp [QubitOperator.opLR]
    rw [this, add_mul]
    congr 1
    unfold QubitOperator.opLR
    rw [List.map_map, ← List.sum_map_mul_left]
    congr 1
    apply List.map_congr_left
    intro w hw
    simp only [Function.comp]
    rw [smul_mul_smul_comm, h s (by simp) w hw, smul_smul]

theorem filter_pairs {U : QubitOperator} {p : ℂ × Circuit → Bool} {q : ℂ × Circuit → Bool} (f : ℂ × Circuit → QubitOperator) :
    ∀ (K : QubitOperator), (∀ s ∈ K, ∀ t ∈ f s, p t = q s) → (K.flatMap f).filter p = (K.filter q).flatMap f
  | [], _ => rfl
  | s :: K, h => by
    have ih := filter_pairs (U := U) f K (fun s hs => h s (by simp [hs]))
    rw [List.flatMap_cons, List.filter_append, ih]
    cases hq : q s with
    | true =>
      rw [List.filter_cons_of_pos hq, List.flatMap_cons]
      congr 1
      exact List.filter_eq_self.2 fun t ht => by rw [h s (by simp) t ht, hq]
    | false =>
      rw [List.filter_cons_of_neg (by simp [hq])]
      have : (f s).filter p = [] := List.filter_eq_nil_iff.2 fun t ht => by rw [h s (by simp) t ht, hq]; simp
      rw [this, List.nil_append]

/-- the first product of `taper_operator` -/
theorem product_left {A' U : QubitOperator} {P : Op} {k : ℕ} {gens : List Circuit} (nA : (A'.map Prod.snd).Nodup) (cA : ∀ t ∈ A', t.2.Canonical)
    (hcomm : ∀ t ∈ A', ∀ g ∈ gens, Commute t.2.opLR g.opLR) (ch : Chain k U P []) (sp : Sep U gens []) :
    ∃ B, (A'.products U).simplify = .ok B ∧ B.IsPauli ∧ B.opLR = QubitOperator.opLR (A'.filter fun t => decide (1e-12 < ‖t.1‖ * rho ^ k)) * P := by
  have ex : ∀ s w : ℂ × Circuit, ∃ p : ℂ × Circuit, s.2.Canonical → w.2.Canonical → IsUnit4 p.1 ∧ Circuit.Canonical p.2 ∧ s.2.opLR * w.2.opLR = p.1 • Circuit.opLR p.2 := by
    intro t d
    by_cases h1 : t.2.Canonical <;> by_cases h2 : d.2.Canonical
    · obtain ⟨k, e, a, b, c⟩ := canon_mul h1 h2; exact ⟨(k, e), fun _ _ => ⟨a, b, c⟩⟩
    · exact ⟨(0, []), fun _ h => absurd h h2⟩
    · exact ⟨(0, []), fun h _ => absurd h h1⟩
    · exact ⟨(0, []), fun h _ => absurd h h1⟩
  choose F hF using ex
  have spec : ∀ s ∈ A', ∀ w ∈ U, IsUnit4 (F s w).1 ∧ Circuit.Canonical (F s w).2 ∧ s.2.opLR * w.2.opLR = (F s w).1 • Circuit.opLR (F s w).2 :=
    fun s hs w hw => hF s w (cA s hs) (ch.can w hw)
  set f : ℂ × Circuit → QubitOperator := fun s => U.map fun w => (s.1 * w.1 * (F s w).1, (F s w).2) with hf
  have can0 : ∀ t ∈ A'.flatMap f, t.2.Canonical := by
    intro t ht
    obtain ⟨s, hs, h1⟩ := List.mem_flatMap.1 ht
    obtain ⟨w, hw, rfl⟩ := List.mem_map.1 h1
    exact (spec s hs w hw).2.1
  -- equal strings come from equal pairs
  have inj : ∀ s ∈ A', ∀ w ∈ U, ∀ s' ∈ A', ∀ w' ∈ U, (F s w).2 = (F s' w').2 → s = s' ∧ w = w' := by
    intro s hs w hw s' hs' w' hw' e
    obtain ⟨u1, c1, e1⟩ := spec s hs w hw
    obtain ⟨u2, c2, e2⟩ := spec s' hs' w' hw'
    rw [← e] at e2
    have wsq := canon_sq (ch.can w hw); have wsq' := canon_sq (ch.can w' hw')
    have key : ∀ (s w : ℂ × Circuit) (z : ℂ) (C : Op), s ∈ A' → w ∈ U → z ≠ 0 → s.2.opLR * w.2.opLR = z • C → ∀ g ∈ gens, (Commute C g.opLR ↔ Commute w.2.opLR g.opLR) := by
      intro s w z C hs hw hz e g hg
      have ssq := canon_sq (cA s hs)
      have hc := hcomm s hs g hg
      have hC : C = z⁻¹ • (s.2.opLR * w.2.opLR) := by rw [e, smul_smul, inv_mul_cancel₀ hz, one_smul]
      have hw' : w.2.opLR = z • (s.2.opLR * C) := by rw [← mul_smul_comm, ← e, ← mul_assoc, ssq, one_mul]
      constructor
      · intro h; rw [hw']; exact Commute.smul_left (hc.mul_left h) _
      · intro h; rw [hC]; exact Commute.smul_left (hc.mul_left h) _
    have hww : w.2 = w'.2 := sp.sep w hw w' hw' (fun g hg => by
      rw [← key s w _ _ hs hw u1.ne_zero e1 g hg, ← key s' w' _ _ hs' hw' u2.ne_zero e2 g hg])
    have hss : s.2 = s'.2 := by
      refine canon_inj (k := (F s' w').1 * (F s w).1⁻¹) (cA s hs) (cA s' hs') ?_
      have h1 : s.2.opLR = (F s w).1 • (Circuit.opLR (F s w).2 * w.2.opLR) := by rw [← smul_mul_assoc, ← e1, mul_assoc, wsq, mul_one]
      have h2 : s'.2.opLR = (F s' w').1 • (Circuit.opLR (F s w).2 * w'.2.opLR) := by rw [← smul_mul_assoc, ← e2, mul_assoc, wsq', mul_one]
      rw [h1, h2, hww, smul_smul, mul_assoc, inv_mul_cancel₀ u1.ne_zero, mul_one]
    exact ⟨List.inj_on_of_nodup_map nA hs hs' hss, List.inj_on_of_nodup_map ch.nd hw hw' hww⟩
  have nd0 : ((A'.flatMap f).map Prod.snd).Nodup := by
    rw [List.map_flatMap, List.nodup_flatMap]
    have ndA : A'.Nodup := List.Nodup.of_map _ nA
    have ndU : U.Nodup := List.Nodup.of_map _ ch.nd
    refine ⟨?_, ?_⟩
    · intro s hs
      rw [hf]
      simp only [List.map_map]
      exact (List.nodup_map_iff_inj_on ndU).2 fun w hw w' hw' e => (inj s hs w hw s hs w' hw' e).2
    · refine List.Pairwise.imp_of_mem ?_ ndA
      intro s s' hs hs' hne x hx hx'
      simp only [hf, List.map_map, List.mem_map, Function.comp] at hx hx'
      obtain ⟨w, hw, rfl⟩ := hx
      obtain ⟨w', hw', e⟩ := hx'
      exact hne (inj s hs w hw s' hs' w' hw' e.symm).1
  have op0 : (A'.products U).opLR = QubitOperator.opLR (A'.flatMap f) := by
    rw [opLR_products, opLR_pairs F A' fun s hs w hw => (spec s hs w hw).2.2]
  have hAp : A'.IsPauli := fun t ht => canonical_api (cA t ht)
  have hUp : U.IsPauli := fun t ht => canonical_api (ch.can t ht)
  obtain ⟨B, eB, nB, pB⟩ := simplify_perm (products_isPauli hAp hUp) can0 nd0 op0
  refine ⟨B, eB, fun t ht => canonical_api (nB.canonical t ht), ?_⟩
  rw [opLR_perm pB, filter_pairs (U := U) (q := fun t => decide (1e-12 < ‖t.1‖ * rho ^ k)) f A' ?_, opLR_pairs F _ fun s hs w hw => (spec s (List.mem_filter.1 hs).1 w hw).2.2, ch.op]
  intro s hs t ht
  obtain ⟨w, hw, rfl⟩ := List.mem_map.1 ht
  simp only
  rw [norm_mul, norm_mul, isUnit4_norm (spec s hs w hw).1, mul_one, ch.norm w hw]

theorem rho_pos : 0 < rho := by
  unfold rho
  have s0 : 0 < Real.sqrt 2 := Real.sqrt_pos.2 (by norm_num)
  positivity

theorem rho_le_one : rho ≤ 1 := by
  have s0 : 0 < Real.sqrt 2 := Real.sqrt_pos.2 (by norm_num)
  unfold rho
  rw [div_le_one s0, show (1 : ℝ) = Real.sqrt 1 by simp]
  exact Real.sqrt_le_sqrt (by norm_num)

theorem rho_bound (x : ℝ) (k : ℕ) : 1e-12 < x * rho ^ k ↔ 1e-12 * Real.sqrt 2 ^ k < x := by
  have s0 : 0 < Real.sqrt 2 ^ k := pow_pos (Real.sqrt_pos.2 (by norm_num)) k
  have : rho ^ k = 1 / Real.sqrt 2 ^ k := by unfold rho; rw [div_pow, one_pow]
  rw [this, mul_one_div, lt_div_iff₀ s0]

/-- the second product of `taper_operator` -/
theorem product_right {K U B : QubitOperator} {k : ℕ} {l : List (Circuit × ℕ)} (nK : (K.map Prod.snd).Nodup) (cK : ∀ t ∈ K, t.2.Canonical)
    (hK : ∀ t ∈ K, 1e-12 < ‖t.1‖ * rho ^ k) (hk : k ≤ 79)
    (ha : ∀ t ∈ l, t.1.Canonical ∧ AntiPair (opPair t)) (hp : l.Pairwise (fun t u => CommPairs (opPair t) (opPair u)))
    (hcomm : ∀ t ∈ K, ∀ p ∈ l, Commute t.2.opLR p.1.opLR) (ch : Chain k U ((l.map opPair).map hadPair).prod [])
    (hB : B.IsPauli) (eB : B.opLR = K.opLR * ((l.map opPair).map hadPair).prod) :
    ∃ T, U.operatorProduct B true true = .ok T ∧ T.opLR = ((l.map opPair).map hadPair).prod * K.opLR * ((l.map opPair).map hadPair).prod ∧
      ∀ t ∈ T, t.2.Canonical ∧ ∀ p ∈ l, Commute t.2.opLR (opX p.2) := by
  obtain ⟨p1, p2, _⟩ := pairs_prod (l.map opPair) (by
      intro u hu
      obtain ⟨v, hv, rfl⟩ := List.mem_map.1 hu
      exact (ha v hv).2) (List.pairwise_map.2 hp)
  set P := ((l.map opPair).map hadPair).prod with hP
  have ex : ∀ s : ℂ × Circuit, ∃ q : ℂ × Circuit, s ∈ K → IsUnit4 q.1 ∧ Circuit.Canonical q.2 ∧ P * s.2.opLR * P = q.1 • Circuit.opLR q.2 := by
    intro s
    by_cases hs : s ∈ K
    · obtain ⟨z, c, h⟩ := conj_string l ha hp s.2 (cK s hs) (hcomm s hs)
      exact ⟨(z, c), fun _ => h⟩
    · exact ⟨(0, []), fun h => absurd h hs⟩
  choose F hF using ex
  set T0 : QubitOperator := K.map fun s => (s.1 * (F s).1, (F s).2) with hT0
  have hUp : U.IsPauli := fun t ht => canonical_api (ch.can t ht)
  obtain ⟨U1, e1, op1, nU1, _⟩ := simplify_exact hUp ch.can ch.nd rfl (fun t ht => by rw [ch.norm t ht]; exact rho_pow_gt hk)
  have hU1p : U1.IsPauli := fun t ht => canonical_api (nU1.canonical t ht)
  have can0 : ∀ t ∈ T0, t.2.Canonical := by
    intro t ht
    obtain ⟨s, hs, rfl⟩ := List.mem_map.1 ht
    exact (hF s hs).2.1
  have nd0 : (T0.map Prod.snd).Nodup := by
    rw [hT0, List.map_map]
    refine (List.nodup_map_iff_inj_on (List.Nodup.of_map _ nK)).2 ?_
    intro s hs s' hs' e
    have e : (F s).2 = (F s').2 := e
    refine List.inj_on_of_nodup_map nK hs hs' ?_
    obtain ⟨u1, _, e1⟩ := hF s hs
    obtain ⟨u2, _, e2⟩ := hF s' hs'
    have back : ∀ A : Op, P * (P * A * P) * P = A := by
      intro A
      calc P * (P * A * P) * P = (P * P) * A * (P * P) := by simp only [mul_assoc]
        _ = A := by rw [p1, one_mul, mul_one]
    refine canon_inj (k := (F s').1 * (F s).1⁻¹) (cK s hs) (cK s' hs') ?_
    rw [← back s.2.opLR, ← back s'.2.opLR, e1, e2, ← e]
    simp only [mul_smul_comm, smul_mul_assoc, smul_smul]
    rw [mul_assoc, inv_mul_cancel₀ u1.ne_zero, mul_one]
  have op0 : (U1.products B).opLR = T0.opLR := by
    rw [opLR_products, op1, ch.op, eB, ← mul_assoc]
    unfold QubitOperator.opLR
    rw [hT0, List.map_map, ← List.sum_map_mul_left, ← List.sum_map_mul_right]
    congr 1
    apply List.map_congr_left
    intro s hs
    simp only [Function.comp]
    rw [mul_smul_comm, smul_mul_assoc, (hF s hs).2.2, smul_smul]
  have norm0 : ∀ t ∈ T0, 1e-12 < ‖t.1‖ := by
    intro t ht
    obtain ⟨s, hs, rfl⟩ := List.mem_map.1 ht
    simp only
    rw [norm_mul, isUnit4_norm (hF s hs).1, mul_one]
    refine lt_of_lt_of_le (hK s hs) ?_
    exact mul_le_of_le_one_right (norm_nonneg _) (pow_le_one₀ rho_pos.le rho_le_one)
  obtain ⟨T, e2, op2, nT, mem2⟩ := simplify_exact (products_isPauli hU1p hB) can0 nd0 op0 norm0
  refine ⟨T, ?_, ?_, ?_⟩
  · unfold QubitOperator.operatorProduct
    rw [if_pos rfl, e1, except_ok_bind, if_pos rfl, e2]
  · rw [op2, opLR_products, op1, ch.op, eB, mul_assoc]
  · intro t ht
    refine ⟨nT.canonical t ht, fun p hp' => ?_⟩
    obtain ⟨s, hs, rfl⟩ := List.mem_map.1 (mem2 t ht)
    obtain ⟨u, _, e⟩ := hF s hs
    have h1 : P * p.1.opLR = opX p.2 * P := p2 (opPair p) (List.mem_map.2 ⟨p, hp', rfl⟩)
    have h2 : p.1.opLR * P = P * opX p.2 := by
      have : P * (P * p.1.opLR) * P = P * (opX p.2 * P) * P := by rw [h1]
      rw [← mul_assoc P P, p1, one_mul, mul_assoc, mul_assoc (opX p.2), p1, mul_one] at this
      exact this
    have hc : Commute (P * s.2.opLR * P) (opX p.2) := by
      show P * s.2.opLR * P * opX p.2 = opX p.2 * (P * s.2.opLR * P)
      calc P * s.2.opLR * P * opX p.2 = P * s.2.opLR * (P * opX p.2) := by rw [mul_assoc]
        _ = P * (s.2.opLR * p.1.opLR) * P := by rw [← h2]; simp only [mul_assoc]
        _ = P * (p.1.opLR * s.2.opLR) * P := by rw [(hcomm s hs p hp').eq]
        _ = (P * p.1.opLR) * s.2.opLR * P := by simp only [mul_assoc]
        _ = _ := by rw [h1]; simp only [mul_assoc]
    rw [e] at hc
    have := Commute.smul_left hc (F s).1⁻¹
    rwa [smul_smul, inv_mul_cancel₀ u.ne_zero, one_smul] at this

end Taper
end QF
