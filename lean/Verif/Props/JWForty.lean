import Verif.Props.JW
import Mathlib.Analysis.Complex.Norm

/-! C36: forty ladder operators are dropped. -/
namespace QF
open SQOperator

theorem pauli_bound {c : Circuit} (hc : PauliCircuit c) (ψ : St) (h : ∀ J, ‖ψ J‖ ≤ 1) : ∀ I, ‖c.opLR ψ I‖ ≤ 1 := by
  induction c with
  | nil => simpa [Circuit.opLR] using h
  | cons g c ih =>
    have ih' := ih (fun g hg => hc g (by simp [hg]))
    have e : Circuit.opLR (g :: c) = g.op * Circuit.opLR c := by simp [Circuit.opLR]
    intro I
    rw [e, Module.End.mul_apply]
    rcases (hc g (by simp)).cases with h1 | h1 | h1 <;> rw [h1]
    · rw [op_gX, opX_apply]; exact ih' _
    · rw [op_gY, opY_apply, norm_mul]
      have : ‖(if I.testBit g.target then Complex.I else -Complex.I)‖ = 1 := by split_ifs <;> simp
      rw [this, one_mul]; exact ih' _
    · rw [op_gZ, opZ_apply, norm_mul]
      have : ‖(if I.testBit g.target then (-1 : ℂ) else 1)‖ = 1 := by split_ifs <;> simp
      rw [this, one_mul]; exact ih' _

theorem ladder_bound (b : Bool) (p : ℕ) (ψ : St) (h : ∀ J, ‖ψ J‖ ≤ 1) (I : ℕ) : ‖ladder b p ψ I‖ ≤ 1 := by
  rw [ladder_apply]
  split_ifs
  · rw [norm_mul]
    have : ‖fsign I p‖ = 1 := by unfold fsign; simp
    rw [this, one_mul]; exact h _
  · simp

theorem ladder_prod_bound (b : Bool) (ops : List ℕ) (ψ : St) (h : ∀ J, ‖ψ J‖ ≤ 1) : ∀ I, ‖(ops.map (ladder b)).prod ψ I‖ ≤ 1 := by
  induction ops with
  | nil => simpa using h
  | cons p ops ih =>
    intro I
    rw [List.map_cons, List.prod_cons, Module.End.mul_apply]
    exact ladder_bound b p _ ih I

/-- the coefficients of a product of the 40 lowest creators are at most `2^{-40}` -/
theorem forty_bound (F : QubitOperator) (hF : F.Normal) (l : List ℕ) (hl : l.Nodup) (hm : ∀ j < 40, j ∈ l)
    (ho : F.opLR = (l.map aDag).prod) : ∀ t ∈ F, ‖t.1‖ ≤ 1e-12 := by
  intro t ht
  obtain ⟨n, hn40, hn⟩ : ∃ n, 40 ≤ n ∧ ∀ u ∈ F, ∀ g ∈ u.2, g.target < n := by
    refine ⟨40 + (F.map fun u => (u.2.map fun g => g.target + 1).sum).sum, by omega, ?_⟩
    intro u hu g hg
    have h1 : g.target + 1 ≤ (u.2.map fun g => g.target + 1).sum := List.single_le_sum (by simp) _ (List.mem_map_of_mem hg)
    have h2 : (u.2.map fun g => g.target + 1).sum ≤ (F.map fun u => (u.2.map fun g => g.target + 1).sum).sum :=
      List.single_le_sum (by simp) _ (List.mem_map.2 ⟨u, hu, rfl⟩)
    omega
  have htr : trN n (t.2.opLR * F.opLR) = t.1 * 2 ^ n := by
    have hnd := Normal.nodup hF
    have key : ∀ G : QubitOperator, (∀ u ∈ G, u ∈ F) → (G.map Prod.snd).Nodup →
        (t ∈ G → trN n (t.2.opLR * G.opLR) = t.1 * 2 ^ n) ∧ (t.2 ∉ G.map Prod.snd → trN n (t.2.opLR * G.opLR) = 0) := by
      intro G
      induction G with
      | nil => intro _ _; exact ⟨by simp, fun _ => by simp [QubitOperator.opLR, trN_zero]⟩
      | cons u G ih =>
        intro hG hnd
        simp only [List.map_cons, List.nodup_cons] at hnd
        obtain ⟨i1, i2⟩ := ih (fun v hv => hG v (by simp [hv])) hnd.2
        have e : QubitOperator.opLR (u :: G) = u.1 • u.2.opLR + QubitOperator.opLR G := by simp [QubitOperator.opLR]
        have hu := hG u (by simp)
        refine ⟨?_, ?_⟩
        · intro hmem
          rw [e, mul_add, trN_add, mul_smul_comm, trN_smul]
          rcases List.mem_cons.1 hmem with rfl | h
          · rw [canon_sq (hF.canonical t ht), trN_one, i2 hnd.1, add_zero]
          · have hne : t.2 ≠ u.2 := fun e => hnd.1 (e ▸ List.mem_map_of_mem h)
            rw [trN_mul (hF.canonical t ht) (hF.canonical u hu) (hn t ht) (hn u hu) hne, mul_zero, zero_add, i1 h]
        · intro hnm
          simp only [List.map_cons, List.mem_cons, not_or] at hnm
          rw [e, mul_add, trN_add, mul_smul_comm, trN_smul,
            trN_mul (hF.canonical t ht) (hF.canonical u hu) (hn t ht) (hn u hu) hnm.1, i2 hnm.2, mul_zero, add_zero]
    exact (key F (fun u hu => hu) hnd).1 ht
  have hle : ‖trN n (t.2.opLR * F.opLR)‖ ≤ 2 ^ (n - 40) := by
    rw [ho]
    unfold trN
    refine (norm_sum_le _ _).trans ?_
    have hterm : ∀ I ∈ Finset.range (2 ^ n), ‖(t.2.opLR * (l.map aDag).prod) (Pi.single I 1) I‖ ≤ if 2 ^ 40 ∣ I then (1 : ℝ) else 0 := by
      intro I _
      rw [Module.End.mul_apply]
      split_ifs with hd
      · apply pauli_bound (hF.canonical t ht).pauli
        apply ladder_prod_bound true l
        intro J
        by_cases hJ : J = I
        · subst hJ; simp
        · rw [Pi.single_eq_of_ne hJ]; simp
      · have : ∃ p ∈ l, I.testBit p = true := by
          by_contra hcon
          push Not at hcon
          apply hd
          rw [Nat.dvd_iff_mod_eq_zero]
          apply Nat.eq_of_testBit_eq
          intro j
          rw [Nat.testBit_mod_two_pow, Nat.zero_testBit]
          by_cases hj : j < 40
          · have := hcon j (hm j hj); simp [this]
          · simp [hj]
        have hb := lad_prod_blocked false true l I hl this
        have hb' : (l.map aDag).prod (Pi.single I 1) = 0 := hb
        rw [hb', map_zero]; simp
    refine (Finset.sum_le_sum hterm).trans ?_
    rw [← Finset.sum_filter, Finset.sum_const, nsmul_eq_mul, mul_one]
    have hsub : (Finset.range (2 ^ n)).filter (fun I => 2 ^ 40 ∣ I) ⊆ (Finset.range (2 ^ (n - 40))).image (fun j => 2 ^ 40 * j) := by
      intro I hI
      obtain ⟨h1, j, rfl⟩ := Finset.mem_filter.1 hI
      refine Finset.mem_image.2 ⟨j, ?_, rfl⟩
      rw [Finset.mem_range] at h1 ⊢
      have : 2 ^ n = 2 ^ 40 * 2 ^ (n - 40) := by rw [← pow_add]; congr 1; omega
      rw [this] at h1
      exact Nat.lt_of_mul_lt_mul_left h1
    have hc := (Finset.card_le_card hsub).trans Finset.card_image_le
    rw [Finset.card_range] at hc
    exact_mod_cast hc
  rw [htr, norm_mul] at hle
  have h2 : ‖(2 : ℂ) ^ n‖ = 2 ^ 40 * 2 ^ (n - 40) := by
    rw [norm_pow, ← pow_add, show 40 + (n - 40) = n by omega]; norm_num
  rw [h2] at hle
  have hpos : (0 : ℝ) < 2 ^ (n - 40) := by positivity
  have : ‖t.1‖ * 2 ^ 40 ≤ 1 := by
    by_contra hcon
    push Not at hcon
    nlinarith
  have h40 : (1 : ℝ) ≤ 1e-12 * 2 ^ 40 := by norm_num
  nlinarith

/-- C36 refuted (long products): the product of the forty creators `39† … 1† 0†` is not the zero operator, but its
transform is the empty qubit operator: every coefficient is `2^{-40}`, below the threshold of the intermediate
`simplify`. -/
theorem C36_refuted_forty (o : DescSort) : ∃ R, jwTransform o [(1, (List.range 40).reverse, [])] false = .ok ([], R) ∧
    SQOperator.op [(1, (List.range 40).reverse, [])] ≠ 0 := by
  have hnd : (List.range 40).reverse.Nodup := List.nodup_reverse.2 List.nodup_range
  obtain ⟨z, c, a, hz, e, h1, h2, hd, ho⟩ := simplify_one o (List.range 40).reverse []
  have ha : a = [] := List.perm_nil.1 h2
  subst ha
  have hcn : c.Nodup := h1.nodup_iff.2 hnd
  have hlen : c.length = 40 := by rw [h1.length_eq]; simp
  have hj : jwHelper [] c true false = .ok [] := by
    obtain ⟨l, p, rfl⟩ : ∃ l p, c = l ++ [p] := by
      rcases List.eq_nil_or_concat c with h | ⟨l, p, h⟩
      · rw [h] at hlen; simp at hlen
      · exact ⟨l, p, by simpa using h⟩
    have hl39 : l.length = 39 := by simpa using hlen
    have hln : l.Nodup := hcn.sublist (List.sublist_append_left _ _)
    obtain ⟨H, e1, i1⟩ := jwHelper_ok false true l [] 1 0 ⟨by simp, by simp, .inl ⟨rfl, rfl, rfl⟩⟩ (by omega) (by
      intro j _
      have := lad_string_ne_zero false (l.take j) [] (hln.sublist (List.take_sublist _ _)) List.nodup_nil
      simpa using this)
    have hop : H.opLR = (l.map aDag).prod := by
      rcases i1.op with ⟨_, _, h⟩ | h
      · omega
      · rw [h, one_mul]; rfl
    have hne : H ≠ [] := by
      intro e; rw [e] at hop
      have := lad_string_ne_zero false l [] hln List.nodup_nil
      apply this
      simp only [List.map_nil, List.prod_nil, mul_one]
      exact hop.symm
    have e0 : jwHelper [] (l ++ [p]) true false = (do
        let H ← jwHelper [] l true false
        jwHelper H [p] true false : Except Exc QubitOperator) := by
      unfold jwHelper; rw [List.foldlM_append]
    rw [e0, e1, except_ok_bind]
    unfold jwHelper
    rw [List.foldlM_cons, jwLadder_ok, except_ok_bind, if_neg (by simpa using hne)]
    obtain ⟨A1, g1, g2, g3, g4⟩ := QubitOperator.simplify_lat i1.pauli i1.lat (by omega)
    have hp : ∀ t ∈ A1.products (ladQ false true p), PauliCircuit t.2 := by
      intro t ht g hg
      unfold QubitOperator.products at ht
      obtain ⟨l, hl, ht⟩ := List.mem_flatMap.1 ht
      obtain ⟨r, hr, rfl⟩ := List.mem_map.1 ht
      rw [addCircuit_eq, addCircuit_eq, List.nil_append] at hg
      rcases List.mem_append.1 hg with h | h
      · exact (g3.canonical l hl).pauli g h
      · exact ladQ_pauli false true p r hr g h
    obtain ⟨F, f1, nF, oF, -, f2⟩ := simplify_full hp
    have hoF : F.opLR = ((l ++ [p]).map aDag).prod := by
      rw [oF, opLR_products, g2, hop, ladQ_opLR]
      simp [lad]
    have hb := forty_bound F nF (l ++ [p]) hcn (by
      intro j hj
      rw [h1.mem_iff]; simpa using hj) hoF
    unfold QubitOperator.operatorProduct
    rw [if_pos rfl, g1, except_ok_bind, if_pos rfl, f2]
    have : F.filter (fun t => decide (‖t.1‖ > 1e-12)) = [] := by
      rw [List.filter_eq_nil_iff]
      intro t ht
      simpa using hb t ht
    rw [this]; rfl
  refine ⟨[(z, c, [])], ?_, ?_⟩
  · unfold jwTransform
    rw [e, except_ok_bind]
    have hj2 : jwHelper [] [] false false = .ok [] := rfl
    simp only [List.foldlM_cons, List.foldlM_nil, hj, hj2, except_ok_bind, pure, Except.pure]
    rw [if_neg (by simp [hlen]), except_ok_bind, except_ok_bind]
    rfl
  · have := lad_string_ne_zero false (List.range 40).reverse [] hnd List.nodup_nil
    intro h0
    apply this
    rw [← h0]
    simp [SQOperator.op, fermiString]
    rfl

end QF
