import Verif.Lemmas.Flat
import Verif.Spec.Resources

/-!
The Pauli strings of an excitation operator: their letters and their number.
-/
namespace QF

theorem opLR_cons' (x : ℂ × Circuit) (F : QubitOperator) : QubitOperator.opLR (x :: F) = x.1 • x.2.opLR + QubitOperator.opLR F := by
  simp [QubitOperator.opLR]

/-- if conjugation with a Pauli letter multiplies an operator by `ε`, every string of it has that commutation sign -/
theorem letters_of_conj {F : QubitOperator} (hF : ∀ t ∈ F, t.2.Canonical) (hn : (F.map Prod.snd).Nodup) {m : String} (hm : IsXYZ m) (q : ℕ) {ε : ℂ}
    (h : pauliL m q * F.opLR * pauliL m q = ε • F.opLR) : ∀ t ∈ F, t.1 ≠ 0 → eps (letterAt t.2 q) m = ε := by
  intro t ht h0
  have e : (recoef F fun t => t.1 * eps (letterAt t.2 q) m).opLR = (recoef F fun t => t.1 * ε).opLR := by
    have e1 : (recoef F fun t => t.1 * eps (letterAt t.2 q) m).opLR = pauliL m q * F.opLR * pauliL m q := by
      clear h ht hn
      induction F with
      | nil => simp [recoef, QubitOperator.opLR]
      | cons x F ih =>
        have e2 : (recoef (x :: F) fun t => t.1 * eps (letterAt t.2 q) m).opLR = (x.1 * eps (letterAt x.2 q) m) • x.2.opLR +
            (recoef F fun t => t.1 * eps (letterAt t.2 q) m).opLR := by simp [recoef, QubitOperator.opLR]
        rw [opLR_cons', e2, ih (fun t ht => hF t (by simp [ht])), mul_add, add_mul, mul_smul_comm, smul_mul_assoc, canon_conj (hF x (by simp)) hm, smul_smul]
    have e3 : (recoef F fun t => t.1 * ε).opLR = ε • F.opLR := by
      clear h ht hn hF e1
      induction F with
      | nil => simp [recoef, QubitOperator.opLR]
      | cons x F ih =>
        have e2 : (recoef (x :: F) fun t => t.1 * ε).opLR = (x.1 * ε) • x.2.opLR + (recoef F fun t => t.1 * ε).opLR := by simp [recoef, QubitOperator.opLR]
        rw [opLR_cons', e2, ih, smul_add, smul_smul, mul_comm ε]
    rw [e1, e3, h]
  exact mul_left_cancel₀ h0 (recoef_eq hF hn _ _ e t ht)

/-! ### conjugation of ladder operators -/

theorem ladder_conjX (b : Bool) {p j : ℕ} (h : j ≠ p) : opX j * ladder b p * opX j = (if j < p then (-1 : ℂ) else 1) • ladder b p := by
  refine Op.ext' fun ψ I => ?_
  rw [Module.End.mul_apply, Module.End.mul_apply, opX_apply, ladder_apply, opX_apply, LinearMap.smul_apply, Pi.smul_apply, ladder_apply, flip_bit_ne h.symm,
    fsign_flip, flipBit_comm' I j p, flipBit_flipBit]
  by_cases hj : j < p <;> by_cases hb : I.testBit p = b <;> simp [hj, hb]

theorem ladder_conjZ (b : Bool) (p j : ℕ) : opZ j * ladder b p * opZ j = (if j = p then (-1 : ℂ) else 1) • ladder b p := by
  refine Op.ext' fun ψ I => ?_
  rw [Module.End.mul_apply, Module.End.mul_apply, opZ_apply, ladder_apply, opZ_apply, LinearMap.smul_apply, Pi.smul_apply, ladder_apply, testBit_flipBit]
  by_cases hj : j = p
  · subst hj
    by_cases hb : I.testBit j = b <;> cases hI : I.testBit j <;> simp_all
  · by_cases hb : I.testBit p = b <;> cases hI : I.testBit j <;> simp [hj, hb]

theorem qladder_conjX (b : Bool) {p j : ℕ} (h : j ≠ p) : opX j * qladder b p * opX j = (1 : ℂ) • qladder b p := by
  refine Op.ext' fun ψ I => ?_
  rw [Module.End.mul_apply, Module.End.mul_apply, opX_apply, qladder_apply, opX_apply, LinearMap.smul_apply, Pi.smul_apply, qladder_apply, flip_bit_ne h.symm,
    flipBit_comm' I j p, flipBit_flipBit]
  simp

theorem qladder_conjZ (b : Bool) (p j : ℕ) : opZ j * qladder b p * opZ j = (if j = p then (-1 : ℂ) else 1) • qladder b p := by
  refine Op.ext' fun ψ I => ?_
  rw [Module.End.mul_apply, Module.End.mul_apply, opZ_apply, qladder_apply, opZ_apply, LinearMap.smul_apply, Pi.smul_apply, qladder_apply, testBit_flipBit]
  by_cases hj : j = p
  · subst hj
    by_cases hb : I.testBit j = b <;> cases hI : I.testBit j <;> simp_all
  · by_cases hb : I.testBit p = b <;> cases hI : I.testBit j <;> simp [hj, hb]

/-- conjugation of a product of operators each of which is multiplied by a sign -/
theorem conj_prod {u : Op} (hu : u * u = 1) (O : ℕ → Op) (ε : ℕ → ℂ) : ∀ (l : List ℕ), (∀ p ∈ l, u * O p * u = ε p • O p) →
    u * (l.map O).prod * u = (l.map ε).prod • (l.map O).prod
  | [], _ => by simp [hu]
  | p :: l, h => by
    have h1 := h p (by simp)
    have h2 := conj_prod hu O ε l fun p hp => h p (by simp [hp])
    have e : u * ((p :: l).map O).prod * u = (u * O p * u) * (u * (l.map O).prod * u) := by
      rw [List.map_cons, List.prod_cons]
      calc _ = u * O p * (u * u) * (l.map O).prod * u := by rw [hu]; simp [mul_assoc]
        _ = _ := by simp only [mul_assoc]
    rw [e, h1, h2, List.map_cons, List.prod_cons, List.map_cons, List.prod_cons, smul_mul_smul_comm]

theorem conj_mul {u A B : Op} (hu : u * u = 1) {x y : ℂ} (hA : u * A * u = x • A) (hB : u * B * u = y • B) : u * (A * B) * u = (x * y) • (A * B) := by
  have e : u * (A * B) * u = (u * A * u) * (u * B * u) := by
    calc _ = u * A * (u * u) * B * u := by rw [hu]; simp [mul_assoc]
      _ = _ := by simp only [mul_assoc]
  rw [e, hA, hB, smul_mul_smul_comm]

/-- conjugation of an excitation operator -/
theorem conj_kappa {u : Op} (hu : u * u = 1) (q : Bool) (c a : List ℕ) (ε : ℕ → ℂ)
    (h : ∀ p ∈ c ++ a, ∀ b, u * (if q then qladder b p else ladder b p) * u = ε p • (if q then qladder b p else ladder b p)) :
    u * kappa q c a * u = ((c ++ a).map ε).prod • kappa q c a := by
  have hp : ((a.reverse ++ c.reverse).map ε).prod = ((c ++ a).map ε).prod := by
    refine List.Perm.prod_eq (List.Perm.map _ ?_)
    rw [← List.reverse_append]; exact List.reverse_perm _
  have hc : ∀ p ∈ c, p ∈ c ++ a := fun p hp => by simp [hp]
  have ha : ∀ p ∈ a, p ∈ c ++ a := fun p hp => by simp [hp]
  unfold kappa
  cases q
  · simp only [Bool.false_eq_true, if_false] at h ⊢
    have h1 : u * fermiString c a * u = ((c ++ a).map ε).prod • fermiString c a := by
      rw [List.map_append, List.prod_append]
      exact conj_mul hu (conj_prod hu _ _ _ fun p hp => h p (hc p hp) true) (conj_prod hu _ _ _ fun p hp => h p (ha p hp) false)
    have h2 : u * fermiString a.reverse c.reverse * u = ((c ++ a).map ε).prod • fermiString a.reverse c.reverse := by
      rw [← hp, List.map_append, List.prod_append]
      exact conj_mul hu (conj_prod hu _ _ _ fun p hp => h p (ha p (by simpa using hp)) true) (conj_prod hu _ _ _ fun p hp => h p (hc p (by simpa using hp)) false)
    rw [mul_sub, sub_mul, h1, h2, smul_sub]
  · simp only [if_true] at h ⊢
    have h1 : u * qubitString c a * u = ((c ++ a).map ε).prod • qubitString c a := by
      rw [List.map_append, List.prod_append]
      exact conj_mul hu (conj_prod hu _ _ _ fun p hp => h p (hc p hp) true) (conj_prod hu _ _ _ fun p hp => h p (ha p hp) false)
    have h2 : u * qubitString a.reverse c.reverse * u = ((c ++ a).map ε).prod • qubitString a.reverse c.reverse := by
      rw [← hp, List.map_append, List.prod_append]
      exact conj_mul hu (conj_prod hu _ _ _ fun p hp => h p (ha p (by simpa using hp)) true) (conj_prod hu _ _ _ fun p hp => h p (hc p (by simpa using hp)) false)
    rw [mul_sub, sub_mul, h1, h2, smul_sub]

theorem prod_sign (P : ℕ → Prop) [DecidablePred P] (l : List ℕ) : (l.map fun p => if P p then (-1 : ℂ) else 1).prod = (-1) ^ l.countP P := by
  induction l with
  | nil => simp
  | cons p l ih => rw [List.map_cons, List.prod_cons, ih, List.countP_cons]; by_cases h : P p <;> simp [h, pow_succ]

/-- the letters of the strings of an excitation between different orbitals: `X` or `Y` on its orbitals, `Z` on the qubits with a sign, nothing elsewhere -/
theorem kappa_letters {F : QubitOperator} (hF : ∀ t ∈ F, t.2.Canonical) (hn : (F.map Prod.snd).Nodup) (q : Bool) {c a : List ℕ} (hd : (c ++ a).Nodup)
    (hF0 : ∀ t ∈ F, t.1 ≠ 0) (h : F.opLR = kappa q c a) : ∀ t ∈ F, ∀ j, letterAt t.2 j ≠ "I" ↔ j ∈ c ++ a ∨ (q = false ∧ j ∈ signQubits (c ++ a)) := by
  intro t ht j
  have e1 : (-1 : ℂ) ≠ 1 := by norm_num
  have hZ := letters_of_conj hF hn (m := "Z") (.inr (.inr rfl)) j (by
    rw [h, pauliL_Z]
    exact conj_kappa (opZ_sq j) q c a (fun p => if j = p then (-1 : ℂ) else 1) fun p hp b => by
      cases q
      · simp only [Bool.false_eq_true, if_false]; exact ladder_conjZ b p j
      · simp only [if_true]; exact qladder_conjZ b p j) t ht (hF0 t ht)
  rw [prod_sign] at hZ
  have hcount : (c ++ a).countP (fun p => j = p) = if j ∈ c ++ a then 1 else 0 := by
    have : (c ++ a).countP (fun p => j = p) = (c ++ a).count j := by
      unfold List.count; refine List.countP_congr fun p _ => ?_; rw [decide_eq_true_eq, beq_iff_eq]; exact eq_comm
    rw [this]
    by_cases hj : j ∈ c ++ a
    · rw [if_pos hj]; exact List.count_eq_one_of_mem hd hj
    · rw [if_neg hj]; exact List.count_eq_zero_of_not_mem hj
  rw [hcount] at hZ
  by_cases hj : j ∈ c ++ a
  · rw [if_pos hj, pow_one] at hZ
    refine ⟨fun _ => .inl hj, fun _ hI => ?_⟩
    rw [hI] at hZ
    simp [eps] at hZ
    exact e1 hZ.symm
  rw [if_neg hj, pow_zero] at hZ
  have hX := letters_of_conj hF hn (m := "X") (.inl rfl) j (ε := if q then 1 else (-1) ^ (c ++ a).countP (j < ·)) (by
    rw [h, pauliL_X]
    cases q
    · simp only [Bool.false_eq_true, if_false]
      rw [← prod_sign]
      exact conj_kappa (opX_sq j) false c a (fun p => if j < p then (-1 : ℂ) else 1) fun p hp b => by
        simp only [Bool.false_eq_true, if_false]; exact ladder_conjX b (fun e => hj (e ▸ hp))
    · simp only [if_true]
      have := conj_kappa (opX_sq j) true c a (fun _ => (1 : ℂ)) fun p hp b => by
        simp only [if_true]; exact qladder_conjX b (fun e => hj (e ▸ hp))
      simpa using this) t ht (hF0 t ht)
  have hIZ : letterAt t.2 j = "I" ∨ letterAt t.2 j = "Z" := by
    rcases letterAt_IXYZ (hF t ht) j with hl | hl | hl | hl
    · exact .inl hl
    · rw [hl] at hZ; simp [eps] at hZ; exact absurd hZ e1
    · rw [hl] at hZ; simp [eps] at hZ; exact absurd hZ e1
    · exact .inr hl
  cases q
  · simp only [Bool.false_eq_true, if_false] at hX
    have hs : j ∈ signQubits (c ++ a) ↔ Odd ((c ++ a).countP (j < ·)) := ⟨fun h => h.2, fun h => ⟨hj, h⟩⟩
    rw [hs]
    rcases hIZ with hl | hl
    · rw [hl] at hX ⊢
      simp only [eps, true_or, if_true] at hX
      simp only [ne_eq, not_true_eq_false, false_iff, not_or]
      refine ⟨hj, fun ho => ?_⟩
      rw [ho.2.neg_one_pow] at hX; exact e1 hX.symm
    · rw [hl] at hX ⊢
      simp only [eps] at hX
      refine ⟨fun _ => .inr ⟨rfl, ?_⟩, fun _ => by decide⟩
      rcases Nat.even_or_odd ((c ++ a).countP (j < ·)) with he | ho
      · rw [he.neg_one_pow, if_neg (by decide)] at hX; exact absurd hX e1
      · exact ho
  · simp only [if_true] at hX
    rcases hIZ with hl | hl
    · rw [hl]; simpa using hj
    · rw [hl] at hX
      simp only [eps] at hX
      rw [if_neg (by decide)] at hX; exact absurd hX e1

theorem letterAt_ne_I {s : Circuit} (hs : s.Canonical) (j : ℕ) : letterAt s j ≠ "I" ↔ j ∈ s.map Gate.target := by
  induction s with
  | nil => simp [letterAt]
  | cons g s ih =>
    have hg := (canonical_iff.1 hs).1 g (by simp)
    by_cases h : g.target = j
    · rw [letterAt_cons_eq h]
      simp only [List.map_cons, List.mem_cons, h, true_or, iff_true]
      rcases hg.letter with e | e | e <;> rw [e] <;> decide
    · rw [letterAt_cons_ne h, ih hs.tail]
      simp [Ne.symm h]

theorem weight_canon {s : Circuit} (hs : s.Canonical) : weight s = s.length := by
  unfold weight
  rw [List.countP_eq_length]
  intro g hg
  rcases ((canonical_iff.1 hs).1 g hg).letter with e | e | e <;> rw [e] <;> decide

theorem signQubits_finite (idx : List ℕ) : (signQubits idx).Finite := by
  refine (Set.finite_Iio (idx.foldr max 0 + 1)).subset fun j hj => ?_
  obtain ⟨p, hp, hjp⟩ := List.countP_pos_iff.1 hj.2.pos
  simp only [decide_eq_true_eq] at hjp
  have : ∀ (l : List ℕ), p ∈ l → p ≤ l.foldr max 0 := by
    intro l
    induction l with
    | nil => simp
    | cons x l ih =>
      intro h
      rcases List.mem_cons.1 h with rfl | h
      · simp
      · have := ih h; simp; omega
  have := this _ hp
  simp only [Set.mem_Iio]; omega

/-- each string of an excitation of `r` electrons between different orbitals has `2 r` letters and one for each qubit with a sign -/
theorem kappa_weight {F : QubitOperator} (hF : ∀ t ∈ F, t.2.Canonical) (hn : (F.map Prod.snd).Nodup) (q : Bool) {c a : List ℕ} (hd : (c ++ a).Nodup)
    (hF0 : ∀ t ∈ F, t.1 ≠ 0) (h : F.opLR = kappa q c a) : ∀ t ∈ F, weight t.2 = c.length + a.length + signWidth q (c ++ a) := by
  intro t ht
  have hs := hF t ht
  rw [weight_canon hs]
  have hnd : (t.2.map Gate.target).Nodup := by
    have := hs.sorted
    rw [List.Nodup, List.pairwise_map]
    exact this.imp fun h => by omega
  have e : ((t.2.map Gate.target).toFinset : Set ℕ) = ((c ++ a).toFinset : Set ℕ) ∪ (if q then ∅ else signQubits (c ++ a) : Set ℕ) := by
    ext j
    rw [Finset.mem_coe, List.mem_toFinset, ← letterAt_ne_I hs, kappa_letters hF hn q hd hF0 h t ht]
    cases q <;> simp
  have hfin : (if q then ∅ else signQubits (c ++ a) : Set ℕ).Finite := by
    cases q
    · simpa using signQubits_finite (c ++ a)
    · simp
  have hdis : Disjoint ((c ++ a).toFinset : Set ℕ) (if q then ∅ else signQubits (c ++ a) : Set ℕ) := by
    cases q
    · simp only [Bool.false_eq_true, if_false]
      rw [Set.disjoint_left]
      intro j hj hs
      exact hs.1 (by simpa using hj)
    · simp
  rw [← List.length_map (f := Gate.target) (as := t.2), ← List.toFinset_card_of_nodup hnd, ← Set.ncard_coe_finset, e, Set.ncard_union_eq hdis (Finset.finite_toSet _) hfin,
    Set.ncard_coe_finset, List.toFinset_card_of_nodup hd, List.length_append]
  unfold signWidth
  cases q <;> simp

/-! ### the number of strings -/

theorem trN_strings {n : ℕ} : ∀ {F : QubitOperator}, (∀ t ∈ F, t.2.Canonical) → (F.map Prod.snd).Nodup → (∀ t ∈ F, ∀ g ∈ t.2, g.target < n) →
    trN n (F.opLR * F.opLR) = (F.map fun t => t.1 * t.1).sum * 2 ^ n
  | [], _, _, _ => by simp [QubitOperator.opLR, trN_zero]
  | x :: F, hF, hn, hs => by
    have hx := hF x (by simp)
    have ih := trN_strings (F := F) (fun t ht => hF t (by simp [ht])) (List.nodup_cons.1 hn).2 fun t ht => hs t (by simp [ht])
    have cross : ∀ G : QubitOperator, (∀ t ∈ G, t ∈ F) → trN n (x.2.opLR * QubitOperator.opLR G) = 0 ∧ trN n (QubitOperator.opLR G * x.2.opLR) = 0 := by
      intro G
      induction G with
      | nil => intro _; simp [QubitOperator.opLR, trN_zero]
      | cons y G ihG =>
        intro hG
        have hy := hG y (by simp)
        have hne : x.2 ≠ y.2 := fun e => (List.nodup_cons.1 hn).1 (e ▸ List.mem_map_of_mem hy)
        have := ihG fun t ht => hG t (by simp [ht])
        rw [opLR_cons', mul_add, add_mul, trN_add, trN_add, this.1, this.2, mul_smul_comm, smul_mul_assoc, trN_smul, trN_smul,
          trN_mul hx (hF y (by simp [hy])) (hs x (by simp)) (hs y (by simp [hy])) hne, trN_mul (hF y (by simp [hy])) hx (hs y (by simp [hy])) (hs x (by simp)) (Ne.symm hne)]
        simp
    have c := cross F fun _ h => h
    rw [opLR_cons', add_mul, mul_add, mul_add, trN_add, trN_add, trN_add, ih, smul_mul_smul_comm, canon_sq hx, trN_smul, trN_one, smul_mul_assoc, mul_smul_comm,
      trN_smul, trN_smul, c.1, c.2, List.map_cons, List.sum_cons]
    ring

/-- the matrix of an excitation operator -/
theorem kappa_apply (q : Bool) (c a : List ℕ) (ψ : St) (I : ℕ) :
    kappa q c a ψ I = ((if lvalid (caList c a) I then (if q then 1 else lsign (caList c a) I) else 0) -
      (if lvalid (caList c a) (I ^^^ lmask (caList c a)) then (if q then 1 else lsign (caList c a) (I ^^^ lmask (caList c a))) else 0)) * ψ (I ^^^ lmask (caList c a)) := by
  have e1 := (l_adj (caList c a) I).1
  have e2 := (l_adj (caList c a) I).2.1
  have hadj : ∀ I, lflip (ladj (caList c a)) I = I ^^^ lmask (caList c a) := fun I => by rw [lflip_xor, lmask_adj]
  rw [hadj] at e1 e2
  cases q
  · simp only [kappa, Bool.false_eq_true, if_false, LinearMap.sub_apply, Pi.sub_apply]
    rw [fermiString_eq, fermiString_eq, ← ladj_caList, ladders_apply, ladders_apply, e1, e2, hadj, lflip_xor, sub_mul]
    congr 1 <;> split_ifs <;> ring
  · simp only [kappa, if_true, LinearMap.sub_apply, Pi.sub_apply]
    rw [qubitString_eq, qubitString_eq, ← ladj_caList, qladders_apply, qladders_apply, e1, hadj, lflip_xor, sub_mul]
    congr 1 <;> split_ifs <;> ring

theorem valid_exists {n : ℕ} : ∀ (l : List (Bool × ℕ)), (l.map Prod.snd).Nodup → (∀ x ∈ l, x.2 < n) → ∃ I, I < 2 ^ n ∧ ∀ x ∈ l, I.testBit x.2 = x.1
  | [], _, _ => ⟨0, by positivity, by simp⟩
  | x :: l, h, hb => by
    rw [List.map_cons, List.nodup_cons] at h
    obtain ⟨I, h1, h2⟩ := valid_exists (n := n) l h.2 fun y hy => hb y (by simp [hy])
    by_cases hx : I.testBit x.2 = x.1
    · exact ⟨I, h1, by simpa [hx] using h2⟩
    · refine ⟨flipBit I x.2, (flipBit_lt (hb x (by simp))).2 h1, ?_⟩
      intro y hy
      rcases List.mem_cons.1 hy with rfl | hy
      · rw [testBit_flipBit, if_pos rfl]
        cases hI : I.testBit y.2 <;> cases hy' : y.1 <;> simp_all
      · rw [testBit_flipBit, if_neg, h2 y hy]
        exact fun e => h.1 (e ▸ List.mem_map_of_mem hy)

theorem lmask_testBit : ∀ (l : List (Bool × ℕ)), (l.map Prod.snd).Nodup → ∀ p ∈ l.map Prod.snd, (lmask l).testBit p = true
  | [], _, p, hp => by simp at hp
  | x :: l, h, p, hp => by
    rw [List.map_cons, List.nodup_cons] at h
    have off : ∀ (l : List (Bool × ℕ)) (p : ℕ), p ∉ l.map Prod.snd → (lmask l).testBit p = false := by
      intro l p
      induction l with
      | nil => intro _; simp [lmask]
      | cons y l ih =>
        intro hy
        simp only [List.map_cons, List.mem_cons, not_or] at hy
        have := ih hy.2
        simp only [lmask, List.foldr_cons] at this ⊢
        rw [Nat.testBit_xor, this, Nat.testBit_two_pow, decide_eq_false (Ne.symm hy.1)]; rfl
    show (2 ^ x.2 ^^^ lmask l).testBit p = true
    rw [Nat.testBit_xor, Nat.testBit_two_pow]
    rw [List.map_cons, List.mem_cons] at hp
    rcases hp with rfl | hp
    · rw [off l _ h.1]; simp
    · rw [lmask_testBit l h.2 p hp, decide_eq_false (fun e : x.2 = p => h.1 (e ▸ hp))]; rfl

open Classical in
/-- an excitation on `k ≥ 1` different orbitals has `2 ^ (k - 1)` strings -/
theorem kappa_number {n : ℕ} {F : QubitOperator} (hF : ∀ t ∈ F, t.2.Canonical) (hn : (F.map Prod.snd).Nodup) (q : Bool) {c a : List ℕ} (hd : (c ++ a).Nodup)
    (hne : c ++ a ≠ []) (hF0 : ∀ t ∈ F, t.1 ≠ 0) (h : F.opLR = kappa q c a) (hs : ∀ t ∈ F, ∀ g ∈ t.2, g.target < n) (hb : ∀ p ∈ c ++ a, p < n) :
    F.length * 2 = 2 ^ (c ++ a).length := by
  set l := caList c a with hl
  set m := lmask l with hm
  have hl2 : l.map Prod.snd = c ++ a := by rw [hl, caList_snd]
  have hld : (l.map Prod.snd).Nodup := by rw [hl2]; exact hd
  have hml : m < 2 ^ n := by
    have : ∀ l : List (Bool × ℕ), (∀ p ∈ l.map Prod.snd, p < n) → lmask l < 2 ^ n := by
      intro l
      induction l with
      | nil => intro _; simp [lmask]
      | cons x l ih =>
        intro hx
        simp only [lmask, List.foldr_cons]
        exact Nat.xor_lt_two_pow (Nat.pow_lt_pow_right (by norm_num) (hx _ (by simp))) (ih fun p hp => hx p (by simp [hp]))
    exact this l (by rw [hl2]; exact hb)
  let A : ℕ → ℂ := fun I => if lvalid l I then (if q then 1 else lsign l I) else 0
  let V : ℕ → ℂ := fun I => if lvalid l I then 1 else 0
  have hAA : ∀ I, A I * A I = V I := by
    intro I
    simp only [A, V]
    by_cases hv : lvalid l I = true
    · rw [if_pos hv, if_pos hv]; cases q
      · simp only [Bool.false_eq_true, if_false]; exact lsign_sq l I
      · simp
    · rw [if_neg hv, if_neg hv, mul_zero]
  have hxx : ∀ I, I ^^^ m ^^^ m = I := fun I => by rw [Nat.xor_assoc, Nat.xor_self, Nat.xor_zero]
  have hexc : ∀ I, A I * A (I ^^^ m) = 0 := by
    intro I
    simp only [A]
    by_cases hv : lvalid l I = true
    · by_cases hw : lvalid l (I ^^^ m) = true
      · exfalso
        obtain ⟨x, hx⟩ := List.exists_mem_of_ne_nil l (fun e => hne (by rw [← hl2, e]; rfl))
        have h1 := (lvalid_nodup l hld I).1 hv x hx
        have h2 := (lvalid_nodup l hld _).1 hw x hx
        rw [Nat.testBit_xor, lmask_testBit l hld _ (List.mem_map_of_mem hx), h1] at h2
        cases hx1 : x.1 <;> simp [hx1] at h2
      · rw [if_neg hw, mul_zero]
    · rw [if_neg hv, zero_mul]
  -- the trace of the square
  have ht : trN n (F.opLR * F.opLR) = -(2 * ∑ I ∈ Finset.range (2 ^ n), V I) := by
    unfold trN
    have e : ∀ I, (F.opLR * F.opLR) (Pi.single I 1) I = -(V I + V (I ^^^ m)) := by
      intro I
      rw [h, Module.End.mul_apply, kappa_apply, kappa_apply, ← hl, ← hm, hxx, Pi.single_eq_same, mul_one]
      change (A I - A (I ^^^ m)) * (A (I ^^^ m) - A I) = _
      linear_combination 2 * hexc I - hAA I - hAA (I ^^^ m)
    simp only [e, Finset.sum_neg_distrib, Finset.sum_add_distrib]
    rw [sum_xor n m hml V]; ring
  obtain ⟨I0, hI0, hv0⟩ := valid_exists (n := n) l hld fun x hx => hb _ (by rw [← hl2]; exact List.mem_map_of_mem hx)
  have hv0 := (lvalid_nodup l hld I0).2 hv0
  have hP : (l.map Prod.snd).toFinset = (c ++ a).toFinset := by rw [hl2]
  have hval : ∀ v, lvalid l (v ^^^ I0) = true ↔ Off (c ++ a).toFinset v := by
    intro v
    rw [← hP]
    refine ⟨fun hv => ?_, fun hv => ?_⟩
    · have := lvalid_diff l _ _ hv hv0
      rwa [Nat.xor_assoc, Nat.xor_self, Nat.xor_zero] at this
    · rw [Nat.xor_comm, lvalid_shift l I0 v hv]; exact hv0
  have hcard := card_off n (c ++ a).toFinset fun p hp => hb p (List.mem_toFinset.1 hp)
  have hV : ∑ I ∈ Finset.range (2 ^ n), V I = ∑ v ∈ Finset.range (2 ^ n), if Off (c ++ a).toFinset v then (1 : ℂ) else 0 := by
    rw [← sum_xor n I0 hI0 V]
    refine Finset.sum_congr rfl fun v _ => ?_
    simp only [V]
    by_cases ho : Off (c ++ a).toFinset v
    · rw [if_pos ((hval v).2 ho), if_pos ho]
    · rw [if_neg (fun x => ho ((hval v).1 x)), if_neg ho]
  rw [← hV, List.toFinset_card_of_nodup hd] at hcard
  set k := (c ++ a).length
  rw [trN_strings hF hn hs] at ht
  have hflat := kappa_flat hF hn q c a hF0 h hs hb
  rw [List.toFinset_card_of_nodup hd] at hflat
  have hsq : ∀ t ∈ F, t.1 * t.1 * 2 ^ (2 * k) = -4 := by
    intro t ht
    have hre := (skew_strings hF hn (h ▸ kappa_skew q c a) t ht (hF0 t ht)).1
    have h1 : t.1 = (t.1.im : ℂ) * Complex.I := by apply Complex.ext <;> simp [hre]
    have h2 := hflat t ht
    have h3 : ‖t.1‖ ^ 2 = t.1.im ^ 2 := by rw [← Complex.normSq_eq_norm_sq, Complex.normSq_apply, hre]; ring
    have h4 : t.1.im ^ 2 * 2 ^ (2 * k) = 4 := by rw [← h3, mul_comm 2 k, pow_mul, ← mul_pow, h2]; norm_num
    have h5 : ((t.1.im : ℂ)) ^ 2 * 2 ^ (2 * k) = 4 := by exact_mod_cast h4
    rw [h1]
    linear_combination (Complex.I ^ 2) * h5 + 4 * Complex.I_sq
  have hsum : ∀ G : QubitOperator, (∀ t ∈ G, t ∈ F) → (G.map fun t => t.1 * t.1).sum * 2 ^ (2 * k) = -4 * (G.length : ℂ) := by
    intro G
    induction G with
    | nil => intro _; simp
    | cons x G ih =>
      intro hG
      rw [List.map_cons, List.sum_cons, add_mul, hsq x (hG x (by simp)), ih fun t ht => hG t (by simp [ht]), List.length_cons]
      push_cast; ring
  have hF' := hsum F fun _ h => h
  have h2n : ((2 : ℂ) ^ n) ≠ 0 := pow_ne_zero _ two_ne_zero
  have fin : (F.length : ℂ) * 2 * 2 ^ n * 2 = 2 ^ k * 2 ^ n * 2 := by
    have e1 : (2 : ℂ) ^ (2 * k) = 2 ^ k * 2 ^ k := by rw [two_mul, pow_add]
    rw [e1] at hF'
    linear_combination (2 : ℂ) ^ n * hF' - 2 ^ k * 2 ^ k * ht + 2 * 2 ^ k * hcard
  have fin2 : (F.length : ℂ) * 2 = 2 ^ k := by
    apply mul_right_cancel₀ h2n
    linear_combination fin / 2
  exact_mod_cast fin2

end QF
