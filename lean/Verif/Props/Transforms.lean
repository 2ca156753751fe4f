import Verif.Spec.Organizer
import Verif.Lemmas.JW
import Verif.Props.JW

/-! C51: `pauli_condense` and the functions built on it. -/
namespace QF
namespace Organizer
open QubitOperator

@[simp] theorem wordOp_nil : wordOp [] = 1 := rfl
theorem wordOp_cons (l : PyLetter) (w : PyWord) : wordOp (l :: w) = pauliL l.1 l.2 * wordOp w := by simp [wordOp]
theorem wordOp_append (v w : PyWord) : wordOp (v ++ w) = wordOp v * wordOp w := by simp [wordOp]

theorem op_nil : op [] = 0 := rfl
theorem op_cons (t : ℂ × PyWord) (O : Organizer) : op (t :: O) = t.1 • wordOp t.2 + op O := by simp [op]
theorem op_append (O P : Organizer) : op (O ++ P) = op O + op P := by simp [op]

/-- the multiplication table -/
theorem contraction_spec {a b : String} (ha : IsXYZ a) (hb : IsXYZ b) (t : ℕ) :
    ∃ k s, contraction a b = .ok (k, s) ∧ IsUnit4 k ∧ IsIXYZ s ∧ pauliL a t * pauliL b t = k • pauliL s t := by
  have hI : pauliL "I" t = 1 := by simp [pauliL]
  rcases ha with rfl | rfl | rfl <;> rcases hb with rfl | rfl | rfl
  · exact ⟨1, "I", by simp [contraction], .inl rfl, .inl rfl, by rw [hI, one_smul, pauliL_X]; exact opX_sq t⟩
  · exact ⟨_, "Z", by simp [contraction], .inr (.inr (.inl rfl)), .inr (.inr (.inr rfl)), by rw [pauliL_X, pauliL_Y, pauliL_Z]; exact opX_opY t⟩
  · exact ⟨_, "Y", by simp [contraction], .inr (.inr (.inr rfl)), .inr (.inr (.inl rfl)), by rw [pauliL_X, pauliL_Y, pauliL_Z]; exact opX_opZ t⟩
  · exact ⟨_, "Z", by simp [contraction], .inr (.inr (.inr rfl)), .inr (.inr (.inr rfl)), by rw [pauliL_X, pauliL_Y, pauliL_Z]; exact opY_opX t⟩
  · exact ⟨1, "I", by simp [contraction], .inl rfl, .inl rfl, by rw [hI, one_smul, pauliL_Y]; exact opY_sq t⟩
  · exact ⟨_, "X", by simp [contraction], .inr (.inr (.inl rfl)), .inr (.inl rfl), by rw [pauliL_X, pauliL_Y, pauliL_Z]; exact opY_opZ t⟩
  · exact ⟨_, "Y", by simp [contraction], .inr (.inr (.inl rfl)), .inr (.inr (.inl rfl)), by rw [pauliL_X, pauliL_Y, pauliL_Z]; exact opZ_opX t⟩
  · exact ⟨_, "X", by simp [contraction], .inr (.inr (.inr rfl)), .inr (.inl rfl), by rw [pauliL_X, pauliL_Y, pauliL_Z]; exact opZ_opY t⟩
  · exact ⟨1, "I", by simp [contraction], .inl rfl, .inl rfl, by rw [hI, one_smul, pauliL_Z]; exact opZ_sq t⟩

theorem takeWhile_none {p : PyLetter → Bool} : ∀ {l : PyWord}, (∀ m ∈ l, p m = false) → l.takeWhile p = [] ∧ l.dropWhile p = l
  | [], _ => by simp
  | a :: l, h => by simp [h a (by simp)]

/-- the outcome of condensing one sorted word -/
theorem condenseLoop_ok : ∀ (n : ℕ) (w : PyWord), w.length ≤ n → PyWord.IsPauli w → w.Pairwise (fun a b => a.2 ≤ b.2) → PyWord.AtMostTwice w →
    ∃ k w', IsUnit4 k ∧ PyWord.Canonical w' ∧ k • wordOp w' = wordOp w ∧ (∀ l ∈ w', ∃ m ∈ w, m.2 = l.2) ∧
      ∀ z out, condenseLoop w z out = .ok (z * k, out ++ w') := by
  intro n
  induction n with
  | zero =>
    intro w hw _ _ _
    obtain rfl := List.length_eq_zero_iff.1 (Nat.le_zero.1 hw)
    exact ⟨1, [], .inl rfl, ⟨by simp [PyWord.IsPauli], by simp⟩, by simp, by simp, fun z out => by simp [condenseLoop]⟩
  | succ n ih =>
    intro w hw hp hs h2
    rcases w with _ | ⟨a, w⟩
    · exact ⟨1, [], .inl rfl, ⟨by simp [PyWord.IsPauli], by simp⟩, by simp, by simp, fun z out => by simp [condenseLoop]⟩
    have hs' := List.pairwise_cons.1 hs
    have ha : IsXYZ a.1 := hp a (by simp)
    by_cases h1 : ∀ m ∈ w, m.2 ≠ a.2
    · -- a single letter on this qubit
      obtain ⟨tw, dw⟩ := takeWhile_none (p := fun m => decide (m.2 = a.2)) (l := w) (by simpa using h1)
      obtain ⟨k, w', hk, hc, ho, hm, he⟩ := ih w (by simpa using hw) (fun l hl => hp l (by simp [hl])) hs'.2
        (fun q => le_trans (by rw [List.countP_cons]; omega) (h2 q))
      refine ⟨k, a :: w', hk, ⟨?_, ?_⟩, ?_, ?_, ?_⟩
      · intro l hl
        rcases List.mem_cons.1 hl with rfl | hl
        · exact ha
        · exact hc.pauli l hl
      · refine List.pairwise_cons.2 ⟨?_, hc.sorted⟩
        intro l hl
        obtain ⟨m, hm1, hm2⟩ := hm l hl
        have := hs'.1 m hm1; have := h1 m hm1
        omega
      · rw [wordOp_cons, wordOp_cons, ← ho, mul_smul_comm]
      · intro l hl
        rcases List.mem_cons.1 hl with rfl | hl
        · exact ⟨l, by simp, rfl⟩
        · obtain ⟨m, h, h'⟩ := hm l hl; exact ⟨m, by simp [h], h'⟩
      · intro z out
        rw [condenseLoop, tw, dw]
        simp only [condenseGroup, List.length_singleton, if_true, except_ok_bind, he]
        simp
    · -- two letters
      push Not at h1
      rcases w with _ | ⟨b, r⟩
      · simp at h1
      have hb : b.2 = a.2 := by
        obtain ⟨m, hm, e⟩ := h1
        have h3 := hs'.1 b (by simp)
        rcases List.mem_cons.1 hm with rfl | hm
        · exact e
        · have := (List.pairwise_cons.1 hs'.2).1 m hm; omega
      have hr : ∀ m ∈ r, m.2 ≠ a.2 := by
        intro m hm e
        have := h2 a.2
        rw [List.countP_cons_of_pos (by simp), List.countP_cons_of_pos (by simp [hb])] at this
        have : 0 < r.countP (fun l => l.2 = a.2) := List.countP_pos_iff.2 ⟨m, hm, by simp [e]⟩
        omega
      obtain ⟨tw, dw⟩ := takeWhile_none (p := fun m => decide (m.2 = a.2)) (l := r) (by simpa using hr)
      obtain ⟨c, s, ec, hc4, hsI, hmul⟩ := contraction_spec ha (hp b (by simp)) a.2
      obtain ⟨k, w', hk, hc, ho, hm, he⟩ := ih r (by simp at hw; omega) (fun l hl => hp l (by simp [hl])) (List.pairwise_cons.1 hs'.2).2
        (fun q => le_trans (by rw [List.countP_cons, List.countP_cons]; omega) (h2 q))
      have hgt : ∀ l ∈ w', a.2 < l.2 := by
        intro l hl
        obtain ⟨m, hm1, hm2⟩ := hm l hl
        have := hs'.1 m (by simp [hm1]); have := hr m hm1
        omega
      have hrun : ∀ z out, condenseLoop (a :: b :: r) z out = .ok (z * (c * k), (if s ≠ "I" then out ++ [(s, a.2)] else out) ++ w') := by
        intro z out
        rw [condenseLoop, List.takeWhile_cons_of_pos (by simp [hb]), List.dropWhile_cons_of_pos (by simp [hb]), tw, dw]
        simp only [condenseGroup, List.length_cons, List.length_nil, contractPairs, ec, except_ok_bind]
        rw [if_neg (by omega)]
        simp only [List.nil_append, except_ok_bind, pure, Except.pure, he, mul_assoc]
      have hmul' : pauliL a.1 a.2 * pauliL b.1 b.2 = c • pauliL s a.2 := by rw [hb]; exact hmul
      by_cases hI : s = "I"
      · refine ⟨c * k, w', hc4.mul hk, hc, ?_, ?_, ?_⟩
        · rw [wordOp_cons, wordOp_cons, ← mul_assoc, hmul', hI, ← ho, show pauliL "I" a.2 = 1 by simp [pauliL], smul_mul_smul_comm, one_mul]
        · intro l hl; obtain ⟨m, h, h'⟩ := hm l hl; exact ⟨m, by simp [h], h'⟩
        · intro z out; rw [hrun]; simp [hI]
      · refine ⟨c * k, (s, a.2) :: w', hc4.mul hk, ⟨?_, ?_⟩, ?_, ?_, ?_⟩
        · intro l hl
          rcases List.mem_cons.1 hl with rfl | hl
          · exact hsI.resolve_left hI
          · exact hc.pauli l hl
        · exact List.pairwise_cons.2 ⟨fun l hl => hgt l hl, hc.sorted⟩
        · rw [wordOp_cons, wordOp_cons, wordOp_cons, ← mul_assoc, hmul', ← ho, smul_mul_smul_comm]
        · intro l hl
          rcases List.mem_cons.1 hl with rfl | hl
          · exact ⟨a, by simp, rfl⟩
          · obtain ⟨m, h, h'⟩ := hm l hl; exact ⟨m, by simp [h], h'⟩
        · intro z out; rw [hrun, if_pos hI]; simp

/-- sorting by qubit does not change the operator -/
theorem wordOp_sort (w : PyWord) : wordOp (w.insertionSort fun a b => a.2 ≤ b.2) = wordOp w := by
  have key : ∀ (a : PyLetter) (l : PyWord), wordOp (l.orderedInsert (fun a b => a.2 ≤ b.2) a) = pauliL a.1 a.2 * wordOp l := by
    intro a l
    induction l with
    | nil => simp [wordOp]
    | cons b l ih =>
      rw [List.orderedInsert_cons]
      split_ifs with h
      · rw [wordOp_cons]
      · rw [wordOp_cons, ih, wordOp_cons, ← mul_assoc, ← mul_assoc, (pauliL_comm (by omega)).eq]
  induction w with
  | nil => rfl
  | cons a w ih => rw [List.insertionSort_cons, key, ih, wordOp_cons]

/-- one condensed term: same operator, canonical word -/
structure Condensed (t u : ℂ × PyWord) : Prop where
  canonical : PyWord.Canonical u.2
  same : u.1 • wordOp u.2 = t.1 • wordOp t.2
  phase : ∃ k, IsUnit4 k ∧ u.1 = t.1 * k
  support : ∀ l ∈ u.2, ∃ m ∈ t.2, m.2 = l.2

theorem condense_term (t : ℂ × PyWord) (hp : PyWord.IsPauli t.2) (h2 : PyWord.AtMostTwice t.2) :
    ∃ u, condenseLoop (t.2.insertionSort fun a b => a.2 ≤ b.2) t.1 [] = .ok u ∧ Condensed t u := by
  have perm := List.perm_insertionSort (fun a b : PyLetter => a.2 ≤ b.2) t.2
  have : Std.Total (fun a b : PyLetter => a.2 ≤ b.2) := ⟨fun a b => le_total _ _⟩
  have : IsTrans PyLetter (fun a b => a.2 ≤ b.2) := ⟨fun a b c => le_trans⟩
  obtain ⟨k, w', hk, hc, ho, hm, he⟩ := condenseLoop_ok _ (t.2.insertionSort fun a b => a.2 ≤ b.2) (le_refl _)
    (fun l hl => hp l (perm.mem_iff.1 hl)) (List.pairwise_insertionSort _ _)
    (fun q => by rw [perm.countP_eq]; exact h2 q)
  refine ⟨_, he _ _, ⟨by simpa using hc, ?_, ⟨k, hk, rfl⟩, ?_⟩⟩
  · rw [List.nil_append, mul_smul, ho, wordOp_sort]
  · intro l hl
    obtain ⟨m, h, h'⟩ := hm l (by simpa using hl)
    exact ⟨m, perm.mem_iff.1 h, h'⟩

theorem op_forall2 {O R : Organizer} (h : List.Forall₂ Condensed O R) : op R = op O := by
  induction h with
  | nil => rfl
  | cons a _ ih => rw [op_cons, op_cons, ih, a.same]

/-- C51 for words in which no qubit occurs more than twice (all that the library itself produces: products of two condensed
words): `pauli_condense` succeeds, and term by term returns the same operator as a fourth root of unity times a word with
strictly increasing qubits.  (For three or more letters on one qubit it is wrong: `C51_refuted_three_letters`.) -/
theorem C51_condense_partial (O : Organizer) (hp : ∀ t ∈ O, PyWord.IsPauli t.2) (h2 : ∀ t ∈ O, PyWord.AtMostTwice t.2) :
    ∃ R, condense O = .ok R ∧ R.op = O.op ∧ List.Forall₂ Condensed O R := by
  suffices ∃ R, condense O = .ok R ∧ List.Forall₂ Condensed O R by
    obtain ⟨R, e, h⟩ := this; exact ⟨R, e, op_forall2 h, h⟩
  induction O with
  | nil => exact ⟨[], rfl, .nil⟩
  | cons t O ih =>
    obtain ⟨u, e, hu⟩ := condense_term t (hp t (by simp)) (h2 t (by simp))
    obtain ⟨R, e', hR⟩ := ih (fun t ht => hp t (by simp [ht])) (fun t ht => h2 t (by simp [ht]))
    refine ⟨u :: R, ?_, .cons hu hR⟩
    unfold condense at e' ⊢
    rw [List.mapM_cons, e, except_ok_bind, e', except_ok_bind]; rfl

/-- the hypotheses of C51: a product of two strings with a qubit in common -/
theorem C51_example : PyWord.IsPauli [("Z", 0), ("X", 1), ("Y", 1), ("Z", 2)] ∧ PyWord.AtMostTwice [("Z", 0), ("X", 1), ("Y", 1), ("Z", 2)] := by
  refine ⟨by simp [PyWord.IsPauli, IsXYZ], ?_⟩
  intro q
  simp only [List.countP_cons, List.countP_nil, decide_eq_true_eq]
  split_ifs <;> omega

/-- C51 fails for three letters on one qubit: `X₀ X₀ X₀` is condensed to the identity, although the product is `X₀` -/
theorem C51_refuted_three_letters : ∃ R, condense [(1, [("X", 0), ("X", 0), ("X", 0)])] = .ok R ∧
    R.op ≠ op [(1, [("X", 0), ("X", 0), ("X", 0)])] := by
  refine ⟨[(1, [])], ?_, ?_⟩
  · simp [condense, List.insertionSort, condenseLoop, condenseGroup, contractPairs, contraction, except_ok_bind, pure, Except.pure]
  · intro h
    have h := congrFun (congrArg (fun A : Op => A (Pi.single 0 1)) h) 0
    simp [op, wordOp, pauliL_X, ← mul_assoc, opX_sq, opX_apply] at h
    simp [flipBit] at h

/-! ### `combine_like_terms` -/

theorem op_dictAdd (d : Organizer) (w : PyWord) (c : ℂ) : op (dictAdd d w c) = op d + c • wordOp w := by
  induction d with
  | nil => simp [dictAdd, op]
  | cons t d ih =>
    obtain ⟨z, v⟩ := t
    unfold dictAdd
    split_ifs with h
    · subst h; rw [op_cons, op_cons, add_smul]; abel
    · rw [op_cons, op_cons, ih, add_assoc]

theorem mem_dictAdd {d : Organizer} {w : PyWord} {c : ℂ} {v : PyWord} : v ∈ (dictAdd d w c).map Prod.snd ↔ v ∈ d.map Prod.snd ∨ v = w := by
  induction d with
  | nil => simp [dictAdd]
  | cons t d ih =>
    obtain ⟨z, x⟩ := t
    unfold dictAdd
    split_ifs with h
    · subst h; simp only [List.map_cons, List.mem_cons]; tauto
    · rw [List.map_cons, List.mem_cons, ih, List.map_cons, List.mem_cons, or_assoc]

theorem nodup_dictAdd {d : Organizer} {w : PyWord} {c : ℂ} (h : d.Distinct) : (dictAdd d w c).Distinct := by
  induction d with
  | nil => simp [dictAdd, Distinct]
  | cons t d ih =>
    obtain ⟨z, x⟩ := t
    unfold Distinct at h ih ⊢
    rw [List.map_cons, List.nodup_cons] at h
    unfold dictAdd
    split_ifs with e
    · rw [List.map_cons, List.nodup_cons]; exact h
    · rw [List.map_cons, List.nodup_cons]
      refine ⟨?_, ih h.2⟩
      intro hx
      rcases mem_dictAdd.1 hx with hx | hx
      · exact h.1 hx
      · exact e hx

theorem fold_dictAdd (l d : Organizer) (hd : d.Distinct) :
    op (l.foldl (fun d t => dictAdd d t.2 t.1) d) = op d + op l ∧ (l.foldl (fun d t => dictAdd d t.2 t.1) d).Distinct ∧
    ∀ v, v ∈ (l.foldl (fun d t => dictAdd d t.2 t.1) d).map Prod.snd ↔ v ∈ d.map Prod.snd ∨ v ∈ l.map Prod.snd := by
  induction l generalizing d with
  | nil => exact ⟨by simp [op_nil], hd, by simp⟩
  | cons t l ih =>
    obtain ⟨h1, h2, h3⟩ := ih (dictAdd d t.2 t.1) (nodup_dictAdd hd)
    rw [List.foldl_cons]
    refine ⟨by rw [h1, op_dictAdd, op_cons, add_assoc], h2, ?_⟩
    intro v
    rw [h3, mem_dictAdd, List.map_cons, List.mem_cons, or_assoc]

theorem op_flatten (l : List Organizer) : op l.flatten = (l.map op).sum := by
  induction l with
  | nil => rfl
  | cons a l ih => rw [List.flatten_cons, op_append, ih]; simp

/-- the sum of the coefficients of a word -/
noncomputable def coeffOf (O : Organizer) (w : PyWord) : ℂ := (O.map fun t => if t.2 = w then t.1 else 0).sum

theorem coeffOf_dictAdd (d : Organizer) (w : PyWord) (c : ℂ) (v : PyWord) : coeffOf (dictAdd d w c) v = coeffOf d v + if w = v then c else 0 := by
  induction d with
  | nil => simp [dictAdd, coeffOf]
  | cons t d ih =>
    obtain ⟨z, x⟩ := t
    unfold coeffOf at ih ⊢
    unfold dictAdd
    split_ifs with h1 h2 h2
    · subst h1; subst h2; simp; ring
    · subst h1; simp [h2]
    · rw [List.map_cons, List.sum_cons, ih, if_pos h2, List.map_cons, List.sum_cons]; ring
    · rw [List.map_cons, List.sum_cons, ih, if_neg h2, List.map_cons, List.sum_cons]; ring

theorem coeffOf_fold (l d : Organizer) (v : PyWord) : coeffOf (l.foldl (fun d t => dictAdd d t.2 t.1) d) v = coeffOf d v + coeffOf l v := by
  induction l generalizing d with
  | nil => simp [coeffOf]
  | cons t l ih =>
    rw [List.foldl_cons, ih, coeffOf_dictAdd]
    simp only [coeffOf, List.map_cons, List.sum_cons]
    ring

theorem coeffOf_distinct {d : Organizer} (h : d.Distinct) {t : ℂ × PyWord} (ht : t ∈ d) : coeffOf d t.2 = t.1 := by
  induction d with
  | nil => simp at ht
  | cons u d ih =>
    unfold Distinct at h ih
    rw [List.map_cons, List.nodup_cons] at h
    unfold coeffOf at ih ⊢
    rw [List.map_cons, List.sum_cons]
    rcases List.mem_cons.1 ht with rfl | ht
    · rw [if_pos rfl]
      have : (d.map fun u => if u.2 = t.2 then u.1 else 0) = d.map fun _ => 0 := by
        apply List.map_congr_left
        intro u hu
        rw [if_neg]; intro e; exact h.1 (e ▸ List.mem_map_of_mem hu)
      rw [this]; simp
    · rw [ih h.2 ht, if_neg, zero_add]
      intro e; exact h.1 (e ▸ List.mem_map_of_mem ht)

theorem op_filter (d : Organizer) (p : ℂ × PyWord → Bool) : op d = op (d.filter p) + op (d.filter fun t => !p t) := by
  induction d with
  | nil => simp [op_nil]
  | cons t d ih =>
    rw [op_cons, ih, List.filter_cons, List.filter_cons]
    cases p t <;> simp only [Bool.not_true, Bool.not_false, if_true, Bool.false_eq_true, if_false, op_cons] <;> abel

/-- `combine_like_terms`: the same operator up to the dropped words, each of which had a total coefficient of at most 1e-10;
no word occurs twice, the coefficient of a remaining word is the sum of its coefficients in the input, and no new word appears. -/
theorem C51_combine (ops : List Organizer) :
    ∃ D : Organizer, D.Negligible ∧ (ops.map op).sum = (combineLikeTerms ops).op + D.op ∧ (combineLikeTerms ops).Distinct ∧
      (∀ t ∈ combineLikeTerms ops, 1e-10 < ‖t.1‖ ∧ t.1 = coeffOf ops.flatten t.2 ∧ t.2 ∈ ops.flatten.map Prod.snd) ∧
      ∀ t ∈ D, t.1 = coeffOf ops.flatten t.2 ∧ t.2 ∈ ops.flatten.map Prod.snd := by
  classical
  obtain ⟨h1, h2, h3⟩ := fold_dictAdd ops.flatten [] (by simp [Distinct])
  have hc : ∀ t ∈ ops.flatten.foldl (fun d t => dictAdd d t.2 t.1) [], t.1 = coeffOf ops.flatten t.2 ∧ t.2 ∈ ops.flatten.map Prod.snd := by
    intro t ht
    refine ⟨?_, ?_⟩
    · rw [← coeffOf_distinct h2 ht, coeffOf_fold]; simp [coeffOf]
    · have := (h3 t.2).1 (List.mem_map_of_mem ht)
      simpa using this
  have hsub : ∀ p, (((ops.flatten.foldl (fun d t => dictAdd d t.2 t.1) []).filter p).map Prod.snd).Nodup := fun p =>
    h2.sublist (List.Sublist.map _ List.filter_sublist)
  refine ⟨(ops.flatten.foldl (fun d t => dictAdd d t.2 t.1) []).filter fun t => !decide (‖t.1‖ > 1e-10), ⟨hsub _, ?_⟩, ?_, hsub _, ?_, ?_⟩
  · intro t ht
    have := (List.mem_filter.1 ht).2
    simpa using this
  · rw [← op_flatten, ← zero_add (op ops.flatten), ← op_nil, ← h1, combineLikeTerms]
    convert op_filter _ _
  · intro t ht
    unfold combineLikeTerms at ht
    obtain ⟨ht, h⟩ := List.mem_filter.1 ht
    exact ⟨by simpa using h, hc t ht⟩
  · intro t ht
    exact hc t (List.mem_filter.1 ht).1

/-! ### Products and commutators -/

theorem two_of_canonical {v w : PyWord} (hv : PyWord.Canonical v) (hw : PyWord.Canonical w) : PyWord.IsPauli (v ++ w) ∧ PyWord.AtMostTwice (v ++ w) := by
  refine ⟨fun l hl => (List.mem_append.1 hl).elim (hv.pauli l) (hw.pauli l), ?_⟩
  have one : ∀ {w : PyWord}, PyWord.Canonical w → ∀ q, w.countP (fun l => l.2 = q) ≤ 1 := by
    intro w hw q
    have hs := hw.sorted
    clear hw
    induction w with
    | nil => simp
    | cons a w ih =>
      rw [List.pairwise_cons] at hs
      rw [List.countP_cons]
      split_ifs with h
      · have : w.countP (fun l => l.2 = q) = 0 := by
          rw [List.countP_eq_zero]
          intro l hl
          have := hs.1 l hl
          simp at h ⊢; omega
        omega
      · have := ih hs.2; omega
  intro q
  rw [List.countP_append]
  have := one hv q; have := one hw q
  omega

theorem op_join (L R : Organizer) : op (L.flatMap fun l => R.map fun r => (l.1 * r.1, l.2 ++ r.2)) = L.op * R.op := by
  have inner : ∀ (l : ℂ × PyWord) (R : Organizer), op (R.map fun r => (l.1 * r.1, l.2 ++ r.2)) = (l.1 • wordOp l.2) * R.op := by
    intro l R
    induction R with
    | nil => simp [op_nil]
    | cons r R ih => rw [List.map_cons, op_cons, ih, op_cons, mul_add, wordOp_append, smul_mul_smul_comm]
  induction L with
  | nil => simp [op_nil]
  | cons l L ih => rw [List.flatMap_cons, op_append, inner, ih, op_cons, add_mul]

/-- every word of an organizer is canonical: this is what the functions of this module return -/
def AllCanonical (O : Organizer) : Prop := ∀ t ∈ O, PyWord.Canonical t.2

/-- `join_organizers(L, R)` of organizers with canonical words is the product `L R` up to dropped terms, with canonical,
distinct words -/
theorem C51_join (L R : Organizer) (hL : AllCanonical L) (hR : AllCanonical R) :
    ∃ J D : Organizer, join L R = .ok J ∧ D.Negligible ∧ L.op * R.op = J.op + D.op ∧ J.Distinct ∧ AllCanonical J ∧ AllCanonical D ∧
      ∀ t ∈ J, 1e-10 < ‖t.1‖ := by
  have hmem : ∀ t ∈ (L.flatMap fun l => R.map fun r => (l.1 * r.1, l.2 ++ r.2)), PyWord.IsPauli t.2 ∧ PyWord.AtMostTwice t.2 := by
    intro t ht
    obtain ⟨l, hl, ht⟩ := List.mem_flatMap.1 ht
    obtain ⟨r, hr, rfl⟩ := List.mem_map.1 ht
    exact two_of_canonical (hL l hl) (hR r hr)
  obtain ⟨C, e, ho, hf⟩ := C51_condense_partial _ (fun t ht => (hmem t ht).1) (fun t ht => (hmem t ht).2)
  obtain ⟨D, hD, hs, hd, hk, hk'⟩ := C51_combine [C]
  have can : ∀ w ∈ ([C] : List Organizer).flatten.map Prod.snd, PyWord.Canonical w := by
    intro w hw
    rw [List.flatten_singleton] at hw
    obtain ⟨u, hu, rfl⟩ := List.mem_map.1 hw
    obtain ⟨t, _, h⟩ := forall2_mem_right hf hu
    exact h.canonical
  refine ⟨_, D, ?_, hD, ?_, hd, fun t ht => can _ (hk t ht).2.2, fun t ht => can _ (hk' t ht).2, fun t ht => (hk t ht).1⟩
  · unfold join; rw [e, except_ok_bind]; rfl
  · rw [← op_join, ← ho, ← hs]; simp

theorem op_joinHAm (L R : Organizer) :
    op (L.flatMap fun l => R.flatMap fun r => [(l.1 * r.1, l.2 ++ r.2), (-(l.1 * r.1), r.2 ++ l.2)]) = L.op * R.op - R.op * L.op := by
  have inner : ∀ (l : ℂ × PyWord) (R : Organizer), op (R.flatMap fun r => [(l.1 * r.1, l.2 ++ r.2), (-(l.1 * r.1), r.2 ++ l.2)]) =
      (l.1 • wordOp l.2) * R.op - R.op * (l.1 • wordOp l.2) := by
    intro l R
    induction R with
    | nil => simp [op_nil]
    | cons r R ih =>
      rw [List.flatMap_cons, op_append, ih, op_cons, op_cons, op_nil, op_cons, mul_add, add_mul, wordOp_append, wordOp_append, smul_mul_smul_comm,
        smul_mul_smul_comm, mul_comm r.1 l.1]
      simp only []
      module
  induction L with
  | nil => simp [op_nil]
  | cons l L ih => rw [List.flatMap_cons, op_append, inner, ih, op_cons, add_mul, mul_add]; abel

/-- `join_H_Am_organizers(H, A)` is the commutator `H A - A H` up to dropped terms -/
theorem C51_commutator (H A : Organizer) (hH : AllCanonical H) (hA : AllCanonical A) :
    ∃ J D : Organizer, joinHAm H A = .ok J ∧ D.Negligible ∧ H.op * A.op - A.op * H.op = J.op + D.op ∧ J.Distinct ∧ AllCanonical J ∧ AllCanonical D ∧
      ∀ t ∈ J, 1e-10 < ‖t.1‖ := by
  have hmem : ∀ t ∈ (H.flatMap fun l => A.flatMap fun r => [(l.1 * r.1, l.2 ++ r.2), (-(l.1 * r.1), r.2 ++ l.2)]), PyWord.IsPauli t.2 ∧ PyWord.AtMostTwice t.2 := by
    intro t ht
    obtain ⟨l, hl, ht⟩ := List.mem_flatMap.1 ht
    obtain ⟨r, hr, ht⟩ := List.mem_flatMap.1 ht
    simp only [List.mem_cons, List.not_mem_nil, or_false] at ht
    rcases ht with rfl | rfl
    · exact two_of_canonical (hH l hl) (hA r hr)
    · exact two_of_canonical (hA r hr) (hH l hl)
  obtain ⟨C, e, ho, hf⟩ := C51_condense_partial _ (fun t ht => (hmem t ht).1) (fun t ht => (hmem t ht).2)
  obtain ⟨D, hD, hs, hd, hk, hk'⟩ := C51_combine [C]
  have can : ∀ w ∈ ([C] : List Organizer).flatten.map Prod.snd, PyWord.Canonical w := by
    intro w hw
    rw [List.flatten_singleton] at hw
    obtain ⟨u, hu, rfl⟩ := List.mem_map.1 hw
    obtain ⟨t, _, h⟩ := forall2_mem_right hf hu
    exact h.canonical
  refine ⟨_, D, ?_, hD, ?_, hd, fun t ht => can _ (hk t ht).2.2, fun t ht => can _ (hk' t ht).2, fun t ht => (hk t ht).1⟩
  · unfold joinHAm; rw [e, except_ok_bind]; rfl
  · rw [← op_joinHAm, ← ho, ← hs]; simp

end Organizer
end QF
