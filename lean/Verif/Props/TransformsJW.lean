import Verif.Props.Transforms
import Verif.Lemmas.Excite

/-! C52: the python Jordan-Wigner organizers; C53: organizers and qubit operators; C65: `fermop_to_sq_excitation`. -/
namespace QF
namespace Organizer
open QubitOperator

/-! ### C52 -/

theorem wordOp_map (c : Circuit) (hc : ∀ g ∈ c, PauliGate g) : wordOp (c.map fun g => (g.label, g.target)) = c.opLR := by
  induction c with
  | nil => rfl
  | cons g c ih => rw [List.map_cons, wordOp_cons, ih (fun g hg => hc g (by simp [hg])), Circuit.opLR_cons, (hc g (by simp)).op]

/-- the two words of one ladder operator -/
theorem ladder_words (b : Bool) (p : ℕ) : ladder b p =
    (0.5 : ℂ) • wordOp ((List.range p).map (fun j => (("Z", j) : PyLetter)) ++ [("X", p)]) +
      (if b then -(0.5 * Complex.I) else 0.5 * Complex.I) • wordOp ((List.range p).map (fun j => (("Z", j) : PyLetter)) ++ [("Y", p)]) := by
  have h := ladQ_opLR false b p
  have hp := ladQ_pauli false b p
  simp only [ladQ, Bool.false_eq_true, if_false] at h hp
  have e1 := wordOp_map ((List.range p).map gZ ++ [gX p]) (hp (0.5, _) (List.mem_cons_self))
  have e2 := wordOp_map ((List.range p).map gZ ++ [gY p]) (hp (_, _) (List.mem_cons_of_mem _ (List.mem_singleton.2 rfl)))
  have l1 : ((List.range p).map gZ ++ [gX p]).map (fun g => (g.label, g.target)) = (List.range p).map (fun j => (("Z", j) : PyLetter)) ++ [("X", p)] := by
    simp [List.map_append, List.map_map, Function.comp_def, gZ, gX]
  have l2 : ((List.range p).map gZ ++ [gY p]).map (fun g => (g.label, g.target)) = (List.range p).map (fun j => (("Z", j) : PyLetter)) ++ [("Y", p)] := by
    simp [List.map_append, List.map_map, Function.comp_def, gZ, gY]
  rw [l1] at e1; rw [l2] at e2
  rw [e1, e2]
  have : lad false b p = ladder b p := rfl
  rw [← this, ← h]
  simp [QubitOperator.opLR]

theorem ladder_word_canonical {s : String} (hs : IsXYZ s) (p : ℕ) : PyWord.Canonical ((List.range p).map (fun j => (("Z", j) : PyLetter)) ++ [(s, p)]) := by
  refine ⟨?_, ?_⟩
  · intro l hl
    rcases List.mem_append.1 hl with h | h
    · obtain ⟨j, _, rfl⟩ := List.mem_map.1 h; exact .inr (.inr rfl)
    · rw [List.mem_singleton.1 h]; exact hs
  · refine List.pairwise_append.2 ⟨?_, by simp, ?_⟩
    · rw [List.pairwise_map]; exact List.pairwise_lt_range
    · intro a ha b hb
      obtain ⟨j, hj, rfl⟩ := List.mem_map.1 ha
      rw [List.mem_singleton.1 hb]
      exact List.mem_range.1 hj

theorem canonical_twice {w : PyWord} (h : PyWord.Canonical w) : PyWord.AtMostTwice w := by
  have := (two_of_canonical h (w := []) ⟨by simp [PyWord.IsPauli], by simp⟩).2
  simpa using this

/-- the product of the ladder operators from position `i` on -/
noncomputable def ladProd (n : ℕ) : List ℕ → ℕ → Op
  | [], _ => 1
  | p :: r, i => ladder (decide (i < n)) p * ladProd n r (i + 1)

theorem ladProd_eq (n : ℕ) : ∀ (l : List ℕ) (i : ℕ), ladProd n l i = fermiString (l.take (n - i)) (l.drop (n - i))
  | [], i => by simp [ladProd, fermiString]
  | p :: r, i => by
    rw [ladProd, ladProd_eq n r (i + 1)]
    by_cases h : i < n
    · obtain ⟨k, rfl⟩ : ∃ k, n = i + 1 + k := ⟨n - (i + 1), by omega⟩
      rw [show i + 1 + k - i = k + 1 by omega, show i + 1 + k - (i + 1) = k by omega, List.take_succ_cons, List.drop_succ_cons]
      simp only [fermiString, List.map_cons, List.prod_cons, h, decide_true, mul_assoc]
    · rw [show n - i = 0 by omega, show n - (i + 1) = 0 by omega]
      simp [fermiString, h]

/-- one step -/
theorem joinLR_ok (org : Organizer) (m : ℕ) (hc : AllCanonical org) (hl : ∀ t ∈ org, Lat m t.1) (P : Op)
    (ho : (org = [] ∧ P = 1 ∧ m = 0) ∨ (org ≠ [] ∧ org.op = P)) (b : Bool) (p : ℕ) :
    ∃ R, joinLR org (0.5, (List.range p).map (fun j => (("Z", j) : PyLetter)) ++ [("X", p)])
        (if b then -(0.5 * Complex.I) else 0.5 * Complex.I, (List.range p).map (fun j => (("Z", j) : PyLetter)) ++ [("Y", p)]) = .ok R ∧
      AllCanonical R ∧ (∀ t ∈ R, Lat (m + 1) t.1) ∧ R ≠ [] ∧ R.op = P * ladder b p := by
  have cx := ladder_word_canonical (s := "X") (.inl rfl) p
  have cy := ladder_word_canonical (s := "Y") (.inr (.inl rfl)) p
  have hy : Lat 1 (if b then -(0.5 * Complex.I) else 0.5 * Complex.I) := by cases b; exacts [Lat.half_I, Lat.neg_half_I]
  set wx := (List.range p).map (fun j => (("Z", j) : PyLetter)) ++ [("X", p)] with hwx
  set wy := (List.range p).map (fun j => (("Z", j) : PyLetter)) ++ [("Y", p)] with hwy
  set cY : ℂ := if b then -(0.5 * Complex.I) else 0.5 * Complex.I with hcY
  -- the argument of `pauli_condense`
  have key : ∀ M : Organizer, (∀ t ∈ M, PyWord.IsPauli t.2 ∧ PyWord.AtMostTwice t.2 ∧ Lat (m + 1) t.1) → M ≠ [] → M.op = P * ladder b p →
      ∃ R, condense M = .ok R ∧ AllCanonical R ∧ (∀ t ∈ R, Lat (m + 1) t.1) ∧ R ≠ [] ∧ R.op = P * ladder b p := by
    intro M hM hne hop
    obtain ⟨R, e, h1, h2⟩ := C51_condense_partial M (fun t ht => (hM t ht).1) (fun t ht => (hM t ht).2.1)
    refine ⟨R, e, ?_, ?_, ?_, by rw [h1, hop]⟩
    · intro t ht; obtain ⟨u, _, h⟩ := forall2_mem_right h2 ht; exact h.canonical
    · intro t ht
      obtain ⟨u, hu, h⟩ := forall2_mem_right h2 ht
      obtain ⟨k, hk, e⟩ := h.phase
      rw [e]; exact (hM u hu).2.2.mul (Lat.unit4 hk)
    · rintro rfl; cases h2; exact hne rfl
  unfold joinLR
  rcases ho with ⟨h1, h2, h3⟩ | ⟨h1, h2⟩
  · rw [if_pos h1]
    apply key
    · intro t ht
      subst h3
      simp only [List.mem_cons, List.not_mem_nil, or_false] at ht
      rcases ht with rfl | rfl
      · exact ⟨cx.pauli, canonical_twice cx, Lat.half⟩
      · exact ⟨cy.pauli, canonical_twice cy, hy⟩
    · simp
    · rw [h2, one_mul, ladder_words, op_cons, op_cons, op_nil, add_zero]
  · rw [if_neg h1]
    apply key
    · intro t ht
      obtain ⟨u, hu, ht⟩ := List.mem_flatMap.1 ht
      simp only [List.mem_cons, List.not_mem_nil, or_false] at ht
      rcases ht with rfl | rfl
      · exact ⟨(two_of_canonical (hc u hu) cx).1, (two_of_canonical (hc u hu) cx).2, (hl u hu).mul Lat.half⟩
      · exact ⟨(two_of_canonical (hc u hu) cy).1, (two_of_canonical (hc u hu) cy).2, (hl u hu).mul hy⟩
    · rcases org with _ | ⟨a, r⟩
      · exact absurd rfl h1
      · simp
    · have := op_join org [(0.5, wx), (cY, wy)]
      simp only [List.map_cons, List.map_nil] at this
      rw [this, h2, ladder_words]
      rw [op_cons, op_cons, op_nil, add_zero]

theorem jwLoop_ok (n : ℕ) : ∀ (l : List ℕ) (i : ℕ) (org : Organizer) (m : ℕ) (P : Op), AllCanonical org → (∀ t ∈ org, Lat m t.1) →
    ((org = [] ∧ P = 1 ∧ m = 0) ∨ (org ≠ [] ∧ org.op = P)) → (org = [] → l ≠ []) →
    ∃ R, jwLoop n l i org = .ok R ∧ AllCanonical R ∧ (∀ t ∈ R, Lat (m + l.length) t.1) ∧ R ≠ [] ∧ R.op = P * ladProd n l i
  | [], i, org, m, P, hc, hl, ho, hne => by
    rcases ho with ⟨h, _⟩ | ⟨h, h'⟩
    · exact absurd rfl (hne h)
    · exact ⟨org, rfl, hc, hl, h, by rw [h', ladProd, mul_one]⟩
  | p :: r, i, org, m, P, hc, hl, ho, _ => by
    obtain ⟨R, e, h1, h2, h3, h4⟩ := joinLR_ok org m hc hl P ho (decide (i < n)) p
    obtain ⟨R', e', g1, g2, g3, g4⟩ := jwLoop_ok n r (i + 1) R (m + 1) _ h1 h2 (.inr ⟨h3, h4⟩) (fun h => absurd h h3)
    refine ⟨R', ?_, g1, ?_, g3, by rw [g4, ladProd, mul_assoc]⟩
    · simp only [decide_eq_true_eq] at e
      rw [jwLoop, e, except_ok_bind, e']
    · intro t ht; rw [List.length_cons, show m + (r.length + 1) = m + 1 + r.length by omega]; exact g2 t ht

theorem op_scale (O : Organizer) (z : ℂ) : op (O.map fun t => (t.1 * z, t.2)) = z • O.op := by
  induction O with
  | nil => simp [op_nil]
  | cons t O ih => rw [List.map_cons, op_cons, ih, op_cons, smul_add, smul_smul, mul_comm]

/-- C52: for any list of indices, the first half (rounded down) being creators, the organizer of a single term denotes exactly
the second-quantised term; its words are canonical Pauli words. -/
theorem C52_single_term (sq : List ℕ) (z : ℂ) : ∃ R, singleTermJW (sq, z) = .ok R ∧ AllCanonical R ∧
    R.op = z • fermiString (sq.take (sq.length / 2)) (sq.drop (sq.length / 2)) ∧ ∀ m, Lat m z → ∀ t ∈ R, Lat (sq.length + m) t.1 := by
  unfold singleTermJW
  simp only []
  split_ifs with h
  · obtain rfl := List.length_eq_zero_iff.1 h
    refine ⟨_, rfl, ?_, by simp [op, fermiString], ?_⟩
    · intro t ht; rw [List.mem_singleton.1 ht]; exact ⟨by simp [PyWord.IsPauli], by simp⟩
    · intro m hm t ht; rw [List.mem_singleton.1 ht]; simpa using hm
  · obtain ⟨R, e, h1, h2, h3, h4⟩ := jwLoop_ok (sq.length / 2) sq 0 [] 0 1 (by simp [AllCanonical]) (by simp) (.inl ⟨rfl, rfl, rfl⟩)
      (fun _ => by rintro rfl; exact h rfl)
    refine ⟨R.map fun t => (t.1 * z, t.2), ?_, ?_, ?_, ?_⟩
    · rw [e, except_ok_bind]; rfl
    · intro t ht; obtain ⟨u, hu, rfl⟩ := List.mem_map.1 ht; exact h1 u hu
    · rw [op_scale, h4, one_mul, ladProd_eq, Nat.sub_zero]
    · intro m hm t ht
      obtain ⟨u, hu, rfl⟩ := List.mem_map.1 ht
      have := h2 u hu
      rw [zero_add] at this
      exact this.mul hm

/-- C52: python's organizer and C++'s `jw_transform` of the same term represent the same operator, up to what the C++ side drops
(coefficients of at most 1e-12).  The conditions are those of C36. -/
theorem C52_agree_partial (o : SQOperator.DescSort) (cre ann : List ℕ) (hlen : cre.length = ann.length) (hc : cre.Nodup) (ha : ann.Nodup) (h39 : cre.length + ann.length ≤ 39) (z : ℂ) :
    ∃ (R : Organizer) (Q : QubitOperator) (S DA : SQOperator) (DQ : QubitOperator), singleTermJW (cre ++ ann, z) = .ok R ∧
      SQOperator.jwTransform o [(z, cre, ann)] false = .ok (Q, S) ∧ R.op = Q.op + DQ.op + DA.op ∧
      QubitOperator.Negligible DQ ∧ (DA.map Prod.snd).Nodup ∧ (∀ t ∈ DA, SQTerm.Descending t ∧ ‖t.1‖ ≤ 1e-12) := by
  obtain ⟨R, e, _, hop, _⟩ := C52_single_term (cre ++ ann) z
  obtain ⟨Q, S, DA, DQ, e1, _, e3, _, _, _, hn, hd, hk⟩ := C36_jordan_wigner_partial o [(z, cre, ann)]
    (by intro t ht; rw [List.mem_singleton.1 ht]; exact ⟨hc, ha⟩) (by intro t ht; rw [List.mem_singleton.1 ht]; exact h39)
  refine ⟨R, Q, S, DA, DQ, e, e1, ?_, hn, hd, hk⟩
  rw [hop, ← e3, List.length_append, ← hlen, show (cre.length + cre.length) / 2 = cre.length by omega]
  simp [SQOperator.op]

/-- the operator of a list `[(p, q, …), amplitude]` of terms -/
noncomputable def sqOp (sq : List (List ℕ × ℂ)) : Op :=
  (sq.map fun t => t.2 • fermiString (t.1.take (t.1.length / 2)) (t.1.drop (t.1.length / 2))).sum

theorem mapM_single (sq : List (List ℕ × ℂ)) : ∃ Rs, sq.mapM singleTermJW = .ok Rs ∧ (Rs.map op).sum = sqOp sq ∧
    (∀ R ∈ Rs, AllCanonical R) ∧ ∀ m, (∀ t ∈ sq, ∃ k, Lat k t.2 ∧ t.1.length + k ≤ m) → ∀ R ∈ Rs, ∀ t ∈ R, Lat m t.1 := by
  induction sq with
  | nil => exact ⟨[], rfl, by simp [sqOp], by simp, by simp⟩
  | cons t sq ih =>
    obtain ⟨Rs, e, h1, h2, h3⟩ := ih
    obtain ⟨R, e', g1, g2, g3⟩ := C52_single_term t.1 t.2
    refine ⟨R :: Rs, ?_, ?_, ?_, ?_⟩
    · rw [List.mapM_cons, e', except_ok_bind, e, except_ok_bind]; rfl
    · rw [List.map_cons, List.sum_cons, h1, g2]; simp [sqOp]
    · intro S hS; rcases List.mem_cons.1 hS with rfl | hS; exacts [g1, h2 S hS]
    · intro m hm S hS u hu
      rcases List.mem_cons.1 hS with rfl | hS
      · obtain ⟨k, hk, hk'⟩ := hm t (by simp)
        exact (g3 k hk u hu).mono hk'
      · exact h3 m (fun t ht => hm t (by simp [ht])) S hS u hu

theorem Lat.eq_zero' {m : ℕ} {c : ℂ} (h : Lat m c) (hm : m ≤ 33) (hc : ‖c‖ ≤ 1e-10) : c = 0 := by
  obtain ⟨a, b, e⟩ := h
  have h2 : ‖c * 2 ^ m‖ < 1 := by
    rw [norm_mul, norm_pow, Complex.norm_two]
    have : (2 : ℝ) ^ m ≤ 2 ^ 33 := pow_le_pow_right₀ (by norm_num) hm
    calc ‖c‖ * 2 ^ m ≤ 1e-10 * 2 ^ 33 := by gcongr
      _ < 1 := by norm_num
  rw [e] at h2
  have hn : ((a : ℝ)) ^ 2 + (b : ℝ) ^ 2 < 1 := by
    have h3 : Complex.normSq ((a : ℂ) + b * Complex.I) = (a : ℝ) ^ 2 + (b : ℝ) ^ 2 := by
      rw [show ((a : ℂ) + b * Complex.I) = ((a : ℝ) : ℂ) + ((b : ℝ) : ℂ) * Complex.I by push_cast; rfl, Complex.normSq_add_mul_I]
    rw [← h3, Complex.normSq_eq_norm_sq]
    have := norm_nonneg ((a : ℂ) + b * Complex.I)
    nlinarith
  have hn' : a ^ 2 + b ^ 2 < 1 := by exact_mod_cast hn
  have ha : a = 0 := by nlinarith [sq_nonneg a, sq_nonneg b, Int.emod_emod_of_dvd a (dvd_refl 2), sq_nonneg (a - 1), sq_nonneg (a + 1)]
  have hb : b = 0 := by nlinarith [sq_nonneg a, sq_nonneg b]
  subst ha; subst hb
  simp at e
  exact e

/-- the sum of lattice coefficients is a lattice coefficient -/
theorem coeffOf_lat {m : ℕ} {O : Organizer} (h : ∀ t ∈ O, Lat m t.1) (w : PyWord) : Lat m (coeffOf O w) := by
  unfold coeffOf
  induction O with
  | nil => exact ⟨0, 0, by simp⟩
  | cons t O ih =>
    rw [List.map_cons, List.sum_cons]
    refine Lat.add ?_ (ih (fun t ht => h t (by simp [ht])))
    split_ifs
    · exact h t (by simp)
    · exact ⟨0, 0, by simp⟩

theorem combine_sq (sq : List (List ℕ × ℂ)) : ∃ Rs, sq.mapM singleTermJW = .ok Rs ∧ ∃ D : Organizer, D.Negligible ∧ AllCanonical D ∧ AllCanonical (combineLikeTerms Rs) ∧
    (combineLikeTerms Rs).Distinct ∧ (∀ t ∈ combineLikeTerms Rs, 1e-10 < ‖t.1‖) ∧ sqOp sq = (combineLikeTerms Rs).op + D.op ∧
    ((∀ t ∈ sq, ∃ k, Lat k t.2 ∧ t.1.length + k ≤ 33) → D.op = 0) := by
  obtain ⟨Rs, e, h1, h2, h3⟩ := mapM_single sq
  obtain ⟨D, d1, d2, d3, d4, d5⟩ := C51_combine Rs
  have can : ∀ w ∈ Rs.flatten.map Prod.snd, PyWord.Canonical w := by
    intro w hw
    obtain ⟨t, ht, rfl⟩ := List.mem_map.1 hw
    obtain ⟨R, hR, ht⟩ := List.mem_flatten.1 ht
    exact h2 R hR t ht
  refine ⟨Rs, e, D, d1, fun t ht => can _ (d5 t ht).2, fun t ht => can _ (d4 t ht).2.2, d3, fun t ht => (d4 t ht).1, by rw [← h1, d2], ?_⟩
  intro hl
  have hD : ∀ t ∈ D, t.1 = 0 := by
    intro t ht
    refine Lat.eq_zero' (m := 33) ?_ (le_refl _) (d1.2 t ht)
    rw [(d5 t ht).1]
    apply coeffOf_lat
    intro u hu
    obtain ⟨R, hR, hu⟩ := List.mem_flatten.1 hu
    exact h3 33 hl R hR u hu
  have : ∀ D : Organizer, (∀ t ∈ D, t.1 = 0) → D.op = 0 := by
    intro D hD
    induction D with
    | nil => rfl
    | cons t D ih => rw [op_cons, hD t (by simp), ih (fun t ht => hD t (by simp [ht])), zero_smul, zero_add]
  exact this D hD

/-- C52: `get_jw_organizer` of a list of terms denotes their sum up to dropped words (total coefficient at most 1e-10); nothing is
dropped if the amplitudes are Gaussian multiples of `2^-k` with `k` plus the number of ladder operators at most 33.  Its words are
canonical and distinct. -/
theorem C52_sum (sq : List (List ℕ × ℂ)) : ∃ R D : Organizer, jw sq = .ok R ∧ D.Negligible ∧ sqOp sq = R.op + D.op ∧ AllCanonical R ∧ R.Distinct ∧
    ((∀ t ∈ sq, ∃ k, Lat k t.2 ∧ t.1.length + k ≤ 33) → R.op = sqOp sq) := by
  obtain ⟨Rs, e, D, d1, _, d3, d4, d5, d6, d7⟩ := combine_sq sq
  refine ⟨combineLikeTerms Rs, D, ?_, d1, d6, d3, d4, ?_⟩
  · unfold jw; rw [e, except_ok_bind]; rfl
  · intro h; rw [d6, d7 h, add_zero]

/-- the operator `get_ucc_jw_organizer` is meant to build: `Σ amp (T - T†)` with `T` each term and `T†` its adjoint -/
noncomputable def uccOp (sq : List (List ℕ × ℂ)) : Op :=
  (sq.map fun t => t.2 • (fermiString (t.1.take (t.1.length / 2)) (t.1.drop (t.1.length / 2)) -
    fermiString (t.1.drop (t.1.length / 2)).reverse (t.1.take (t.1.length / 2)).reverse)).sum

theorem sqOp_ucc (sq : List (List ℕ × ℂ)) (he : ∀ t ∈ sq, t.1.length % 2 = 0) :
    sqOp (sq.flatMap fun t => [(t.1, t.2), (t.1.reverse, -1 * t.2)]) = uccOp sq := by
  induction sq with
  | nil => rfl
  | cons t sq ih =>
    have ih := ih (fun t ht => he t (by simp [ht]))
    have h2 := he t (by simp)
    unfold sqOp uccOp at ih ⊢
    rw [List.flatMap_cons, List.map_append, List.sum_append, ih, List.map_cons, List.sum_cons]
    congr 1
    simp only [List.map_cons, List.map_nil, List.sum_cons, List.sum_nil, add_zero, List.length_reverse]
    have e1 : t.1.reverse.take (t.1.length / 2) = (t.1.drop (t.1.length / 2)).reverse := by
      rw [List.take_reverse, show t.1.length - t.1.length / 2 = t.1.length / 2 by omega]
    have e2 : t.1.reverse.drop (t.1.length / 2) = (t.1.take (t.1.length / 2)).reverse := by
      rw [List.drop_reverse, show t.1.length - t.1.length / 2 = t.1.length / 2 by omega]
    rw [e1, e2]
    module

/-- C52: `get_ucc_jw_organizer` on terms of even length denotes `Σ amp (T - T†)` up to dropped words, exactly under the condition of
`C52_sum`; `T†` really is the adjoint (on any register containing the orbitals).  With `already_anti_herm=True` it is
`get_jw_organizer`. -/
theorem C52_ucc (sq : List (List ℕ × ℂ)) (he : ∀ t ∈ sq, t.1.length % 2 = 0) :
    (∃ R D : Organizer, uccJW sq false = .ok R ∧ D.Negligible ∧ uccOp sq = R.op + D.op ∧ AllCanonical R ∧ R.Distinct ∧
      ((∀ t ∈ sq, ∃ k, Lat k t.2 ∧ t.1.length + k ≤ 33) → R.op = uccOp sq)) ∧ uccJW sq true = jw sq := by
  refine ⟨?_, rfl⟩
  obtain ⟨Rs, e, D, d1, _, d3, d4, d5, d6, d7⟩ := combine_sq (sq.flatMap fun t => [(t.1, t.2), (t.1.reverse, -1 * t.2)])
  rw [sqOp_ucc sq he] at d6
  refine ⟨combineLikeTerms Rs, D, ?_, d1, d6, d3, d4, ?_⟩
  · unfold uccJW; rw [if_neg (by simp), e, except_ok_bind]; rfl
  · intro h
    rw [d6, d7, add_zero]
    intro t ht
    obtain ⟨u, hu, ht⟩ := List.mem_flatMap.1 ht
    obtain ⟨k, hk, hk'⟩ := h u hu
    simp only [List.mem_cons, List.not_mem_nil, or_false] at ht
    rcases ht with rfl | rfl
    · exact ⟨k, hk, hk'⟩
    · refine ⟨k, ?_, by simpa using hk'⟩
      have := hk.mul (Lat.unit4 (k := -1) (.inr (.inl rfl)))
      simpa [mul_comm] using this

theorem C52_adjoint (n : ℕ) (l : List ℕ) (h : ∀ p ∈ l, p < n) : IsAdj n (fermiString (l.take (l.length / 2)) (l.drop (l.length / 2)))
    (fermiString (l.drop (l.length / 2)).reverse (l.take (l.length / 2)).reverse) :=
  IsAdj.fermiString (fun p hp => h p (List.mem_of_mem_take hp)) (fun p hp => h p (List.mem_of_mem_drop hp))

theorem antiHermitian_add {n : ℕ} {A B : Op} (hA : AntiHermitian n A) (hB : AntiHermitian n B) : AntiHermitian n (A + B) := by
  intro φ ψ
  rw [LinearMap.add_apply, LinearMap.add_apply, inner_add_right, inner_add_left, hA, hB]; ring

/-- C52: for real amplitudes the operator is anti-Hermitian -/
theorem C52_ucc_antihermitian (n : ℕ) (sq : List (List ℕ × ℂ)) (h : ∀ t ∈ sq, ∀ p ∈ t.1, p < n) (hr : ∀ t ∈ sq, t.2.im = 0) :
    AntiHermitian n (uccOp sq) := by
  induction sq with
  | nil => intro φ ψ; simp [uccOp, inner]
  | cons t sq ih =>
    have := ih (fun t ht => h t (by simp [ht])) (fun t ht => hr t (by simp [ht]))
    unfold uccOp at this ⊢
    rw [List.map_cons, List.sum_cons]
    refine antiHermitian_add ?_ this
    intro φ ψ
    rw [LinearMap.smul_apply, LinearMap.smul_apply, inner_smul_right', inner_smul_left', (C52_adjoint n t.1 (h t (by simp))).antiHermitian]
    rw [Complex.conj_eq_iff_im.2 (hr t (by simp))]; ring

/-- C52 fails for complex amplitudes: the amplitude of `T†` is not conjugated.  `get_ucc_jw_organizer([[(1, 0), 1j]])` returns
exactly `i (a₁† a₀ - a₀† a₁)`, which is not anti-Hermitian. -/
theorem C52_refuted_complex_amplitude : ∃ R, uccJW [([1, 0], Complex.I)] false = .ok R ∧ ¬ AntiHermitian 2 R.op := by
  obtain ⟨⟨R, D, e, _, _, _, _, h⟩, _⟩ := C52_ucc [([1, 0], Complex.I)] (by simp)
  refine ⟨R, e, ?_⟩
  rw [h (by intro t ht; rw [List.mem_singleton.1 ht]; exact ⟨0, Lat.unit4 (.inr (.inr (.inl rfl))), by simp⟩)]
  intro hA
  have := hA (Pi.single 2 1) (Pi.single 1 1)
  simp only [uccOp, fermiString, List.map_cons, List.map_nil, List.sum_cons, List.sum_nil, add_zero, List.length_cons, List.length_nil, inner] at this
  simp [Finset.sum_range_succ, ladder_apply, flipBit, fsign, nBelow, Pi.single_apply, List.range_succ] at this
  rw [if_pos (by decide)] at this
  simp [Complex.ext_iff] at this
  norm_num at this

/-- a double excitation meets the hypotheses of C52 -/
theorem C52_example : [3, 2].length = [1, 0].length ∧ ([3, 2] : List ℕ).Nodup ∧ ([1, 0] : List ℕ).Nodup ∧ [3, 2].length + [1, 0].length ≤ 39 ∧
    (([3, 2] ++ [1, 0] : List ℕ).length % 2 = 0) ∧ Lat 1 (0.5 : ℂ) := ⟨rfl, by simp, by simp, by simp, rfl, Lat.half⟩

/-! ### C53 -/

/-- the letters `organizer_to_circuit` can turn into gates -/
def letters : List String := ["X", "Y", "Z", "H", "V", "S", "T", "I"]

theorem pyGate2_letter {s : String} (hs : s ∈ letters) (t : ℕ) : ∃ g, pyGate2 s t t = .ok g ∧ makeGate s t t 0 = .ok g ∧ g.label = s ∧ g.target = t := by
  have key : ∀ g, makeGate s t t 0 = .ok g → pyGate2 s t t = .ok g ∧ makeGate s t t 0 = .ok g ∧ g.label = s ∧ g.target = t := by
    intro g hg
    have := makeGate_spec hg
    refine ⟨?_, hg, this.1, this.2.1⟩
    unfold pyGate2
    rw [if_neg, if_pos ⟨rfl, hs⟩, hg]
    unfold letters at hs
    simp only [List.mem_cons, List.not_mem_nil, or_false] at hs ⊢
    rcases hs with rfl | rfl | rfl | rfl | rfl | rfl | rfl | rfl <;> decide
  unfold letters at hs
  simp only [List.mem_cons, List.not_mem_nil, or_false] at hs
  rcases hs with rfl | rfl | rfl | rfl | rfl | rfl | rfl | rfl
  · exact ⟨_, key _ (makeGate_of_made (.X t 0))⟩
  · exact ⟨_, key _ (makeGate_of_made (.Y t 0))⟩
  · exact ⟨_, key _ (makeGate_of_made (.Z t 0))⟩
  · exact ⟨_, key _ (makeGate_of_made (.H t 0))⟩
  · exact ⟨_, key _ (makeGate_of_made (.V t 0))⟩
  · exact ⟨_, key _ (makeGate_of_made (.S t 0))⟩
  · exact ⟨_, key _ (makeGate_of_made (.T t 0))⟩
  · exact ⟨_, key _ (makeGate_of_made (.I t 0))⟩

theorem pyGate2_bad {s : String} (hs : s ∉ letters) (t : ℕ) : ∃ e, pyGate2 s t t = .error e := by
  cases h : pyGate2 s t t with
  | error e => exact ⟨e, rfl⟩
  | ok g =>
    exfalso
    unfold pyGate2 at h
    split_ifs at h with h1 h2
    · have hm := made_of_makeGate h
      generalize hc : t = c at hm
      rw [← hc] at hm
      simp only [List.mem_cons, List.not_mem_nil, or_false] at h1
      generalize ht : t = t' at hm
      have hne : t' = c := by omega
      cases hm <;> first | (exact absurd h1 (by decide)) | (exact absurd hne (by omega)) | omega
    · exact hs h2.2

/-- the gates of one word -/
theorem wordCircuit_ok (w : PyWord) (hw : ∀ l ∈ w, l.1 ∈ letters) :
    ∃ c, wordCircuit w = .ok c ∧ c.map (fun g => (g.label, g.target)) = w ∧ ∀ g ∈ c, makeGate g.label g.target g.target 0 = .ok g := by
  have key : ∀ (w : PyWord) (c₀ : Circuit), (∀ l ∈ w, l.1 ∈ letters) → ∃ c,
      w.foldlM (fun circ l => do let g ← pyGate2 l.1 l.2 l.2; pure (circ.addGate g)) c₀ = (.ok (c₀ ++ c) : Except Exc Circuit) ∧
      c.map (fun g => (g.label, g.target)) = w ∧ ∀ g ∈ c, makeGate g.label g.target g.target 0 = .ok g := by
    intro w
    induction w with
    | nil => intro c₀ _; exact ⟨[], by rw [List.append_nil]; rfl, rfl, by simp⟩
    | cons l w ih =>
      intro c₀ h
      obtain ⟨g, e, hm, hl, ht⟩ := pyGate2_letter (h l (by simp)) l.2
      obtain ⟨c, e', h1, h2⟩ := ih (c₀ ++ [g]) (fun l hl => h l (by simp [hl]))
      refine ⟨g :: c, ?_, ?_, ?_⟩
      · rw [List.foldlM_cons, e, except_ok_bind]
        show (do let s ← (Except.ok (c₀ ++ [g]) : Except Exc Circuit); _) = _
        rw [except_ok_bind, e', List.append_assoc, List.singleton_append]
      · rw [List.map_cons, h1, hl, ht]
      · intro g' hg'
        rcases List.mem_cons.1 hg' with rfl | hg'
        · rw [hl, ht]; exact hm
        · exact h2 g' hg'
  exact key w [] hw

/-- what `organizer_to_circuit` returns -/
theorem toCircuit_ok (O : Organizer) (h : ∀ t ∈ O, ∀ l ∈ t.2, l.1 ∈ letters) :
    ∃ A, toCircuit O = .ok A ∧ List.Forall₂ (fun (t : ℂ × PyWord) (u : ℂ × Circuit) => u.1 = t.1 ∧ u.2.map (fun g => (g.label, g.target)) = t.2 ∧
      ∀ g ∈ u.2, makeGate g.label g.target g.target 0 = .ok g) O A := by
  have key : ∀ (O : Organizer) (A₀ : QubitOperator), (∀ t ∈ O, ∀ l ∈ t.2, l.1 ∈ letters) → ∃ A,
      O.foldlM (fun op t => do let circ ← wordCircuit t.2; pure (op.addTerm t.1 circ)) A₀ = (.ok (A₀ ++ A) : Except Exc QubitOperator) ∧
      List.Forall₂ (fun (t : ℂ × PyWord) (u : ℂ × Circuit) => u.1 = t.1 ∧ u.2.map (fun g => (g.label, g.target)) = t.2 ∧
        ∀ g ∈ u.2, makeGate g.label g.target g.target 0 = .ok g) O A := by
    intro O
    induction O with
    | nil => intro A₀ _; exact ⟨[], by rw [List.append_nil]; rfl, .nil⟩
    | cons t O ih =>
      intro A₀ h
      obtain ⟨c, e, h1, h2⟩ := wordCircuit_ok t.2 (h t (by simp))
      obtain ⟨A, e', h3⟩ := ih (A₀ ++ [(t.1, c)]) (fun t ht => h t (by simp [ht]))
      refine ⟨(t.1, c) :: A, ?_, .cons ⟨rfl, h1, h2⟩ h3⟩
      rw [List.foldlM_cons, e, except_ok_bind]
      show (do let s ← (Except.ok (A₀ ++ [(t.1, c)]) : Except Exc QubitOperator); _) = _
      rw [except_ok_bind, e', List.append_assoc, List.singleton_append]
  exact key O [] h

/-- C53: an organizer whose letters are one-qubit parameterless gates survives the round trip through a `QubitOperator` -/
theorem C53_round_trip (O : Organizer) (h : ∀ t ∈ O, ∀ l ∈ t.2, l.1 ∈ letters) : ∃ A, toCircuit O = .ok A ∧ ofCircuit A = O := by
  obtain ⟨A, e, hf⟩ := toCircuit_ok O h
  refine ⟨A, e, ?_⟩
  clear e h
  induction hf with
  | nil => rfl
  | @cons t u _ _ h _ ih =>
    unfold ofCircuit at ih ⊢
    rw [List.map_cons, ih, h.1, h.2.1]

/-- C53: any other letter makes `organizer_to_circuit` raise -/
theorem C53_invalid_letter (O : Organizer) (h : ∃ t ∈ O, ∃ l ∈ t.2, l.1 ∉ letters) : ∃ e, toCircuit O = .error e := by
  have kw : ∀ (w : PyWord) (c₀ : Circuit), (∃ l ∈ w, l.1 ∉ letters) → ∃ e,
      w.foldlM (fun circ l => do let g ← pyGate2 l.1 l.2 l.2; pure (circ.addGate g)) c₀ = (.error e : Except Exc Circuit) := by
    intro w
    induction w with
    | nil => rintro _ ⟨l, hl, _⟩; simp at hl
    | cons l w ih =>
      rintro c₀ ⟨m, hm, hb⟩
      rw [List.foldlM_cons]
      cases hg : pyGate2 l.1 l.2 l.2 with
      | error e => exact ⟨e, rfl⟩
      | ok g =>
        rcases List.mem_cons.1 hm with rfl | hm
        · obtain ⟨e, he⟩ := pyGate2_bad hb m.2; rw [he] at hg; cases hg
        · exact ih _ ⟨m, hm, hb⟩
  have ko : ∀ (O : Organizer) (A₀ : QubitOperator), (∃ t ∈ O, ∃ l ∈ t.2, l.1 ∉ letters) → ∃ e,
      O.foldlM (fun op t => do let circ ← wordCircuit t.2; pure (op.addTerm t.1 circ)) A₀ = (.error e : Except Exc QubitOperator) := by
    intro O
    induction O with
    | nil => rintro _ ⟨l, hl, _⟩; simp at hl
    | cons t O ih =>
      rintro A₀ ⟨m, hm, hb⟩
      rw [List.foldlM_cons]
      cases hg : wordCircuit t.2 with
      | error e => exact ⟨e, rfl⟩
      | ok g =>
        rcases List.mem_cons.1 hm with rfl | hm
        · obtain ⟨e, he⟩ := kw m.2 [] hb; unfold wordCircuit at hg; rw [he] at hg; cases hg
        · exact ih _ ⟨m, hm, hb⟩
  exact ko O [] h

/-- C53, the other way: an operator all of whose gates are one-qubit parameterless gates is rebuilt from its organizer -/
theorem C53_operator_round_trip (A : QubitOperator) (h : ∀ t ∈ A, ∀ g ∈ t.2, g.label ∈ letters ∧ makeGate g.label g.target g.target 0 = .ok g) :
    toCircuit (ofCircuit A) = .ok A := by
  obtain ⟨B, e, hf⟩ := toCircuit_ok (ofCircuit A) (by
    intro t ht l hl
    obtain ⟨u, hu, rfl⟩ := List.mem_map.1 ht
    obtain ⟨g, hg, rfl⟩ := List.mem_map.1 hl
    exact (h u hu g hg).1)
  rw [e]
  congr 1
  clear e
  have same : ∀ (c d : Circuit), (∀ g ∈ c, makeGate g.label g.target g.target 0 = .ok g) → (∀ g ∈ d, makeGate g.label g.target g.target 0 = .ok g) →
      d.map (fun g => (g.label, g.target)) = c.map (fun g => (g.label, g.target)) → d = c := by
    intro c
    induction c with
    | nil => intro d _ _ e; simpa using e
    | cons g c ih =>
      intro d hc hd e
      rcases d with _ | ⟨g', d⟩
      · simp at e
      rw [List.map_cons, List.map_cons, List.cons.injEq] at e
      have e1 : g'.label = g.label ∧ g'.target = g.target := by simpa using e.1
      have h1 := hc g (by simp); have h2 := hd g' (by simp)
      rw [e1.1, e1.2, h1] at h2
      cases h2
      rw [ih d (fun g hg => hc g (by simp [hg])) (fun g hg => hd g (by simp [hg])) e.2]
  induction A generalizing B with
  | nil => cases hf; rfl
  | cons t A ih =>
    cases hf with
    | @cons _ u _ B h1 hf =>
      rw [ih (fun t ht => h t (by simp [ht])) B hf]
      have := same t.2 u.2 (fun g hg => (h t (by simp) g hg).2) h1.2.2 h1.2.1
      rw [show u = t from Prod.ext h1.1 this]

/-- C53: the operator built from an organizer of Pauli letters denotes it (letters multiplied left to right); for words with
increasing qubits, as all functions of this module return, so does its execution -/
theorem C53_operator (O : Organizer) (h : ∀ t ∈ O, PyWord.IsPauli t.2) : ∃ A, toCircuit O = .ok A ∧ A.opLR = O.op ∧
    (AllCanonical O → A.op = O.op ∧ ∀ t ∈ A, t.2.Canonical) := by
  have hl : ∀ t ∈ O, ∀ l ∈ t.2, l.1 ∈ letters := by
    intro t ht l hl
    rcases h t ht l hl with e | e | e <;> rw [e] <;> decide
  obtain ⟨A, e, hf⟩ := toCircuit_ok O hl
  refine ⟨A, e, ?_, ?_⟩
  · clear e hl
    induction hf with
    | nil => rfl
    | @cons t u _ _ h1 _ ih =>
      have hp : ∀ g ∈ u.2, PauliGate g := by
        intro g hg
        refine ⟨?_, h1.2.2 g hg⟩
        have := h t (by simp) (g.label, g.target) (by rw [← h1.2.1]; exact List.mem_map_of_mem hg)
        exact this
      have := wordOp_map u.2 hp
      rw [h1.2.1] at this
      have ih := ih (fun t ht => h t (by simp [ht]))
      unfold QubitOperator.opLR at ih ⊢
      rw [List.map_cons, List.sum_cons, ih, op_cons, this, h1.1]
  · intro hc
    have hcan : ∀ u ∈ A, u.2.Canonical := by
      intro u hu
      obtain ⟨t, ht, h1⟩ := forall2_mem_right hf hu
      refine ⟨?_, ?_⟩
      · intro g hg
        refine ⟨?_, h1.2.2 g hg⟩
        exact h t ht (g.label, g.target) (by rw [← h1.2.1]; exact List.mem_map_of_mem hg)
      · have := (hc t ht).sorted
        rw [← h1.2.1, List.pairwise_map] at this
        exact this
    refine ⟨?_, hcan⟩
    clear e hl
    induction hf with
    | nil => rfl
    | @cons t u _ _ h1 _ ih =>
      have hu := hcan u (by simp)
      have := wordOp_map u.2 (canonical_iff.1 hu).1
      rw [h1.2.1] at this
      have ih := ih (fun t ht => h t (by simp [ht])) (fun t ht => hc t (by simp [ht])) (fun t ht => hcan t (by simp [ht]))
      unfold QubitOperator.op at ih ⊢
      rw [List.map_cons, List.sum_cons, ih, op_cons, this, h1.1, hu.op_eq]

theorem C53_example : ∀ t ∈ ([(0.5, [("X", 0), ("Y", 1)]), (1, [])] : Organizer), PyWord.Canonical t.2 ∧ ∀ l ∈ t.2, l.1 ∈ letters := by
  intro t ht
  simp only [List.mem_cons, List.not_mem_nil, or_false] at ht
  rcases ht with rfl | rfl
  · refine ⟨⟨by simp [PyWord.IsPauli, IsXYZ], by simp⟩, by simp [letters]⟩
  · exact ⟨⟨by simp [PyWord.IsPauli], by simp⟩, by simp⟩

/-! ### C65 -/

/-- number of annihilators / creators -/
def nAnn (l : List (ℕ × Bool)) : ℕ := l.countP fun x => !x.2
def nCre (l : List (ℕ × Bool)) : ℕ := l.countP fun x => x.2

theorem nAnn_cons (x : ℕ × Bool) (l : List (ℕ × Bool)) : nAnn (x :: l) = nAnn l + if x.2 then 0 else 1 := by
  unfold nAnn; rw [List.countP_cons]; cases x.2 <;> rfl
theorem nCre_cons (x : ℕ × Bool) (l : List (ℕ × Bool)) : nCre (x :: l) = nCre l + if x.2 then 1 else 0 := by
  unfold nCre; rw [List.countP_cons]
theorem nAnn_add_nCre (l : List (ℕ × Bool)) : nAnn l + nCre l = l.length := by
  induction l with
  | nil => rfl
  | cons x l ih => rw [nAnn_cons, nCre_cons, List.length_cons, ← ih]; cases x.2 <;> simp <;> omega

/-- when the loop passes its checks -/
def LoopOk (half : ℕ) (l : List (ℕ × Bool)) (i an : ℕ) : Prop :=
  ∀ j < l.length, (i + j < half → an + nAnn (l.take j) = 0) ∧ (half ≤ i + j → an + nAnn (l.take j) ≤ half)

theorem loopOk_cons (half : ℕ) (x : ℕ × Bool) (l : List (ℕ × Bool)) (i an : ℕ) :
    LoopOk half (x :: l) i an ↔ ((i < half → an = 0) ∧ (half ≤ i → an ≤ half)) ∧ LoopOk half l (i + 1) (an + if x.2 then 0 else 1) := by
  constructor
  · intro h
    refine ⟨by simpa [nAnn] using h 0 (by simp), ?_⟩
    intro j hj
    have := h (j + 1) (by simpa using hj)
    rw [List.take_succ_cons, nAnn_cons] at this
    constructor
    · intro hi; have := this.1 (by omega); omega
    · intro hi; have := this.2 (by omega); omega
  · rintro ⟨h0, h⟩ j hj
    rcases j with _ | j
    · simpa [nAnn] using h0
    · have := h j (by simpa using hj)
      rw [List.take_succ_cons, nAnn_cons]
      constructor
      · intro hi; have := this.1 (by omega); omega
      · intro hi; have := this.2 (by omega); omega

theorem fermopLoop_eq (half : ℕ) : ∀ (l : List (ℕ × Bool)) (i an cr : ℕ) (lst : List ℕ),
    (LoopOk half l i an → fermopLoop half l i an cr lst = .ok (an + nAnn l, cr + nCre l, lst ++ l.map Prod.fst)) ∧
    (¬ LoopOk half l i an → fermopLoop half l i an cr lst = .error .valueError)
  | [], i, an, cr, lst => by
    refine ⟨fun _ => by simp [fermopLoop, nAnn, nCre], fun h => absurd ?_ h⟩
    intro j hj; simp at hj
  | (p, c) :: l, i, an, cr, lst => by
    have ih1 := fermopLoop_eq half l (i + 1) an (cr + 1) (lst ++ [p])
    have ih2 := fermopLoop_eq half l (i + 1) (an + 1) cr (lst ++ [p])
    rw [loopOk_cons]
    unfold fermopLoop
    have n1 := nAnn_cons (p, c) l; have n2 := nCre_cons (p, c) l
    simp only [] at n1 n2
    by_cases ha : i < half ∧ an > 0
    · rw [if_pos ha]
      exact ⟨fun h => absurd (h.1.1 ha.1) (by omega), fun _ => rfl⟩
    by_cases hb : i ≥ half ∧ an > half
    · rw [if_neg ha, if_pos hb]
      exact ⟨fun h => absurd (h.1.2 hb.1) (by omega), fun _ => rfl⟩
    rw [if_neg ha, if_neg hb]
    have hc : (i < half → an = 0) ∧ (half ≤ i → an ≤ half) := ⟨fun h => by omega, fun h => by omega⟩
    cases c
    · simp only [Bool.false_eq_true, if_false] at n1 n2 ⊢
      refine ⟨fun h => ?_, fun h => ih2.2 fun hl => h ⟨hc, hl⟩⟩
      rw [ih2.1 h.2, n1, n2]
      simp; omega
    · simp only [if_true] at n1 n2 ⊢
      refine ⟨fun h => ?_, fun h => ih1.2 fun hl => h ⟨hc, by simpa using hl⟩⟩
      rw [ih1.1 (by simpa using h.2), n1, n2]
      simp; omega

/-- exactly which terms `fermop_to_sq_excitation` accepts: an even number of operators, as many creators as annihilators, and a
creator in each of the first `n/2 - 1` positions -/
def Accepted (tup : List (ℕ × Bool)) : Prop :=
  nAnn tup = nCre tup ∧ ∀ x ∈ tup.take (tup.length / 2 - 1), x.2 = true

theorem nAnn_take_le (l : List (ℕ × Bool)) (j : ℕ) : nAnn (l.take j) ≤ nAnn l := (List.take_sublist j l).countP_le

theorem accepted_loop (tup : List (ℕ × Bool)) : (LoopOk (tup.length / 2) tup 0 0 ∧ nAnn tup = nCre tup ∧ tup.length % 2 = 0) ↔ Accepted tup := by
  have htot := nAnn_add_nCre tup
  have mono : ∀ j k, j ≤ k → nAnn (tup.take j) ≤ nAnn (tup.take k) := fun j k h => (List.take_sublist_take_left h).countP_le
  have zero : ∀ j, nAnn (tup.take j) = 0 ↔ ∀ x ∈ tup.take j, x.2 = true := by
    intro j; unfold nAnn; rw [List.countP_eq_zero]; simp
  constructor
  · rintro ⟨h1, h2, h3⟩
    refine ⟨h2, (zero _).1 ?_⟩
    rcases Nat.eq_zero_or_pos tup.length with h | h
    · rw [h]; rfl
    · have := (h1 (tup.length / 2 - 1) (by omega)).1 (by omega)
      simpa using this
  · rintro ⟨h1, h2⟩
    refine ⟨?_, h1, by omega⟩
    intro j hj
    refine ⟨fun hj' => ?_, fun _ => ?_⟩
    · have := mono j (tup.length / 2 - 1) (by omega)
      have := (zero _).2 h2
      omega
    · have := nAnn_take_le tup j; omega

/-- C65: `fermop_to_sq_excitation` returns iff every term is `Accepted`, and then returns the indices in order; otherwise it
raises `ValueError`. -/
theorem C65_accepts_iff (f : List (List (ℕ × Bool) × ℂ)) :
    ((∀ t ∈ f, Accepted t.1) → fermopToSqExcitation f = .ok (f.map fun t => (t.1.map Prod.fst, t.2))) ∧
    ((¬ ∀ t ∈ f, Accepted t.1) → fermopToSqExcitation f = .error .valueError) := by
  induction f with
  | nil => exact ⟨fun _ => rfl, fun h => absurd (by simp) h⟩
  | cons t f ih =>
    obtain ⟨tup, z⟩ := t
    have hloop := fermopLoop_eq (tup.length / 2) tup 0 0 0 []
    unfold fermopToSqExcitation
    by_cases he : tup.length % 2 = 0
    · rw [if_neg (by simpa using he)]
      by_cases hl : LoopOk (tup.length / 2) tup 0 0
      · rw [hloop.1 hl, except_ok_bind]
        simp only [Nat.zero_add, List.nil_append]
        by_cases hc : nAnn tup = nCre tup
        · have hacc : Accepted tup := (accepted_loop tup).1 ⟨hl, hc, he⟩
          rw [if_neg (by simpa using hc)]
          constructor
          · intro h
            rw [ih.1 (fun t ht => h t (by simp [ht])), except_ok_bind]; rfl
          · intro h
            rw [ih.2 (fun h' => h (by
              intro t ht
              rcases List.mem_cons.1 ht with rfl | ht
              exacts [hacc, h' t ht]))]
            rfl
        · rw [if_pos hc]
          exact ⟨fun h => absurd (h (tup, z) (by simp)).1 hc, fun _ => rfl⟩
      · rw [hloop.2 hl]
        exact ⟨fun h => absurd ((accepted_loop tup).2 (h (tup, z) (by simp))).1 hl, fun _ => rfl⟩
    · rw [if_pos he]
      exact ⟨fun h => absurd ((accepted_loop tup).2 (h (tup, z) (by simp))).2.2 he, fun _ => rfl⟩

/-- the operator a tuple `((p, True), (q, False), …)` of ladder operators stands for, in the given order -/
noncomputable def fermopOp (tup : List (ℕ × Bool)) : Op := (tup.map fun x => ladder x.2 x.1).prod

/-- normal ordered: all creators come first -/
def NormalOrdered (tup : List (ℕ × Bool)) : Prop := tup.Pairwise fun x y => y.2 = true → x.2 = true

theorem normal_split {tup : List (ℕ × Bool)} (h : NormalOrdered tup) :
    (∀ x ∈ tup.take (nCre tup), x.2 = true) ∧ ∀ x ∈ tup.drop (nCre tup), x.2 = false := by
  induction tup with
  | nil => simp
  | cons x l ih =>
    unfold NormalOrdered at h ih
    rw [List.pairwise_cons] at h
    rw [nCre_cons]
    by_cases hx : x.2 = true
    · rw [if_pos hx, List.take_succ_cons, List.drop_succ_cons]
      refine ⟨?_, (ih h.2).2⟩
      intro y hy
      rcases List.mem_cons.1 hy with rfl | hy
      exacts [hx, (ih h.2).1 y hy]
    · have hz : nCre l = 0 := by
        unfold nCre; rw [List.countP_eq_zero]; intro y hy hy'; exact hx (h.1 y hy hy')
      rw [if_neg hx, hz]
      simp only [Nat.add_zero, List.take_zero, List.not_mem_nil, false_imp_iff, implies_true, true_and, List.drop_zero]
      intro y hy
      rcases List.mem_cons.1 hy with rfl | hy
      · simpa using hx
      · unfold nCre at hz; rw [List.countP_eq_zero] at hz; simpa using hz y hy

/-- C65 for normal-ordered, particle-number-conserving input: it is accepted, and the result denotes the same operator -/
theorem C65_normal_ordered (f : List (List (ℕ × Bool) × ℂ)) (h : ∀ t ∈ f, NormalOrdered t.1 ∧ nAnn t.1 = nCre t.1) :
    ∃ R, fermopToSqExcitation f = .ok R ∧ sqOp R = (f.map fun t => t.2 • fermopOp t.1).sum := by
  have acc : ∀ t ∈ f, Accepted t.1 := by
    intro t ht
    refine ⟨(h t ht).2, ?_⟩
    intro x hx
    have := nAnn_add_nCre t.1
    have e : t.1.length / 2 - 1 ≤ nCre t.1 := by have := (h t ht).2; omega
    exact (normal_split (h t ht).1).1 x ((List.take_sublist_take_left e).subset hx)
  refine ⟨_, (C65_accepts_iff f).1 acc, ?_⟩
  unfold sqOp
  rw [List.map_map]
  congr 1
  apply List.map_congr_left
  intro t ht
  show t.2 • _ = t.2 • _
  congr 1
  have := nAnn_add_nCre t.1
  have e : t.1.length / 2 = nCre t.1 := by have := (h t ht).2; omega
  obtain ⟨s1, s2⟩ := normal_split (h t ht).1
  rw [List.length_map, e]
  unfold fermopOp fermiString
  conv_rhs => rw [← List.take_append_drop (nCre t.1) t.1]
  rw [List.map_append, List.prod_append, ← List.map_take, ← List.map_drop, List.map_map, List.map_map]
  congr 2
  · apply List.map_congr_left; intro x hx; simp [s1 x hx]
  · apply List.map_congr_left; intro x hx; simp [s2 x hx]

/-- C65 fails as stated in the code ("Term is not normal ordered!"): `a₃† a₂ a₁† a₀` is not normal ordered, but is accepted, and read as
`a₃† a₂† a₁ a₀`, a different operator. -/
theorem C65_refuted_not_normal_ordered : ∃ R, fermopToSqExcitation [([(3, true), (2, false), (1, true), (0, false)], 1)] = .ok R ∧
    ¬ NormalOrdered [(3, true), (2, false), (1, true), (0, false)] ∧
    sqOp R ≠ (1 : ℂ) • fermopOp [(3, true), (2, false), (1, true), (0, false)] := by
  refine ⟨_, (C65_accepts_iff _).1 ?_, by simp [NormalOrdered], ?_⟩
  · intro t ht
    rw [List.mem_singleton.1 ht]
    refine ⟨rfl, ?_⟩
    simp
  · intro h
    have h := congrFun (congrArg (fun A : Op => A (Pi.single 3 1)) h) 12
    simp [sqOp, fermiString, fermopOp, ladder_apply, flipBit, fsign, nBelow, Pi.single_apply, List.range_succ] at h
    revert h
    simp [Nat.testBit, Nat.shiftRight_eq_div_pow]

end Organizer
end QF
