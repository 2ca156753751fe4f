import Verif.Lemmas.CompactSign

/-!
C61: `compact_excitation_circuit`.
-/
namespace QF

theorem compact_finish {T T' U : Op} {V P : ℕ → Prop} [DecidablePred V] [DecidablePred P] {s χ : ℕ → ℂ} {F : ℕ → ℕ} {c0 : ℕ} {ε S : ℝ}
    (hε : ε = 1 ∨ ε = -1) (hS : S = 1 ∨ S = -1)
    (hF : ∀ I, F (F I) = I) (hs : ∀ I, s I * s I = 1) (hχ : ∀ I, χ (F I) = χ I)
    (hT : ∀ ψ I, T ψ I = if V I then s I * ψ (F I) else 0)
    (hT' : ∀ ψ I, T' ψ I = if V (F I) then s (F I) * ψ (F I) else 0)
    (hP : ∀ I, P I ↔ V I ∨ V (F I)) (hc : ∀ I, V I → I.testBit c0 = true) (hcF : ∀ I, V (F I) → I.testBit c0 = false)
    (hsign : ∀ I, V I → s I = ε * S * χ I) (θ : ℝ)
    (hU : ∀ ψ I, U ψ I = if P I then (Real.cos (S * θ) : ℂ) * ψ I + (if I.testBit c0 then (Real.sin (S * θ) : ℂ) else -(Real.sin (S * θ) : ℂ)) *
      (χ I * ψ (F I)) else ψ I) : IsExp (((ε * θ : ℝ) : ℂ) • (T - T')) U := by
  have hV : ∀ I, V I → ¬ V (F I) := fun I h h' => by
    have := hc I h; rw [hcF I h'] at this; cases this
  apply isExp_excite hF hs hV hT hT'
  intro ψ I
  have e1 : Real.cos (ε * θ) = Real.cos θ := by rcases hε with h | h <;> simp [h]
  have e2 : Real.sin (ε * θ) = ε * Real.sin θ := by rcases hε with h | h <;> simp [h]
  have e3 : Real.cos (S * θ) = Real.cos θ := by rcases hS with h | h <;> simp [h]
  have e4 : Real.sin (S * θ) = S * Real.sin θ := by rcases hS with h | h <;> simp [h]
  have hε2 : (ε : ℂ) * ε = 1 := by rcases hε with h | h <;> simp [h]
  rw [hU, e1, e2, e3, e4]
  simp only [Complex.ofReal_mul]
  by_cases h : V I
  · rw [if_pos ((hP I).2 (Or.inl h)), if_pos h, hc I h, hsign I h]
    simp only [if_true]
    linear_combination (-(S * Real.sin θ * χ I * ψ (F I) : ℂ)) * hε2
  · rw [if_neg h]
    by_cases h' : V (F I)
    · rw [if_pos ((hP I).2 (Or.inr h')), if_pos h', hcF I h', hsign _ h', hχ]
      simp only [Bool.false_eq_true, if_false]
      linear_combination ((S * Real.sin θ * χ I * ψ (F I) : ℂ)) * hε2
    · rw [if_neg h', if_neg (fun e => (not_or.2 ⟨h, h'⟩) ((hP I).1 e))]

theorem ctl_cond_plain {f : ℕ → Bool} {l rest : List ℕ} {a0 : ℕ} (hl : l = a0 :: rest) :
    (∀ j (hj : j < l.length), f l[j] = ctlPol false j) ↔ f a0 = true ∧ ∀ x ∈ rest, f x = false := by
  subst hl
  constructor
  · intro h
    refine ⟨h 0 (by simp), ?_⟩
    intro x hx
    obtain ⟨j, hj, rfl⟩ := List.getElem_of_mem hx
    have := h (j + 1) (by simpa using hj)
    simpa [ctlPol] using this
  · rintro ⟨h1, h2⟩ j hj
    cases j with
    | zero => simpa [ctlPol] using h1
    | succ j => simpa [ctlPol] using h2 _ (List.getElem_mem _)

theorem ctl_cond_gsd {f : ℕ → Bool} {l : List ℕ} :
    (∀ j (hj : j < l.length), f l[j] = ctlPol true j) ↔ ∀ x ∈ l, f x = true := by
  constructor
  · intro h x hx
    obtain ⟨j, hj, rfl⟩ := List.getElem_of_mem hx
    simpa [ctlPol] using h j hj
  · intro h j hj; simpa [ctlPol] using h _ (List.getElem_mem hj)

/-- the determinants an excitation leads to -/
def Reached (cre ann : List ℕ) (I : ℕ) : Prop := (∀ p ∈ cre, I.testBit p = true) ∧ (∀ p ∈ ann, I.testBit p = false)

instance (cre ann : List ℕ) : DecidablePred (Reached cre ann) := fun _ => by unfold Reached; infer_instance

theorem reached_flip {cre ann : List ℕ} (h : (cre ++ ann).Nodup) (I : ℕ) :
    Reached cre ann (flipAll (cre ++ ann) I) ↔ (∀ p ∈ cre, I.testBit p = false) ∧ (∀ p ∈ ann, I.testBit p = true) := by
  unfold Reached
  refine and_congr ?_ ?_
  · refine forall_congr' fun p => imp_congr_right fun hp => ?_
    rw [testBit_flipAll h, decide_eq_true (List.mem_append_left _ hp)]; simp
  · refine forall_congr' fun p => imp_congr_right fun hp => ?_
    rw [testBit_flipAll h, decide_eq_true (List.mem_append_right _ hp)]; simp

theorem lvalid_caList {cre ann : List ℕ} (h : (cre ++ ann).Nodup) (I : ℕ) : lvalid (caList cre ann) I = true ↔ Reached cre ann I := by
  rw [lvalid_nodup _ (by rw [caList_snd]; exact h)]
  unfold caList Reached
  simp only [List.mem_append, List.mem_map]
  constructor
  · intro hx
    exact ⟨fun p hp => hx (true, p) (Or.inl ⟨p, hp, rfl⟩), fun p hp => hx (false, p) (Or.inr ⟨p, hp, rfl⟩)⟩
  · rintro ⟨h1, h2⟩ x (⟨p, hp, rfl⟩ | ⟨p, hp, rfl⟩)
    exacts [h1 p hp, h2 p hp]

theorem nodup_swap {cre ann : List ℕ} (h : (cre ++ ann).Nodup) : (ann.reverse ++ cre.reverse).Nodup := by
  rw [← List.reverse_append]; exact List.nodup_reverse.2 h

theorem lflip_adj {cre ann : List ℕ} (h : (cre ++ ann).Nodup) (I : ℕ) : lflip (ladj (caList cre ann)) I = flipAll (cre ++ ann) I := by
  rw [ladj_caList, lflip_nodup _ (by rw [caList_snd]; exact nodup_swap h), caList_snd]
  exact flipAll_congr (nodup_swap h) h (by intro q; simp [or_comm]) I

theorem strings_apply {cre ann : List ℕ} (h : (cre ++ ann).Nodup) (ψ : St) (I : ℕ) :
    fermiString cre ann ψ I = (if Reached cre ann I then lsign (caList cre ann) I * ψ (flipAll (cre ++ ann) I) else 0) ∧
    fermiString ann.reverse cre.reverse ψ I = (if Reached cre ann (flipAll (cre ++ ann) I) then
      lsign (caList cre ann) (flipAll (cre ++ ann) I) * ψ (flipAll (cre ++ ann) I) else 0) ∧
    qubitString cre ann ψ I = (if Reached cre ann I then 1 * ψ (flipAll (cre ++ ann) I) else 0) ∧
    qubitString ann.reverse cre.reverse ψ I = (if Reached cre ann (flipAll (cre ++ ann) I) then 1 * ψ (flipAll (cre ++ ann) I) else 0) := by
  have hl : lflip (caList cre ann) I = flipAll (cre ++ ann) I := by
    rw [lflip_nodup _ (by rw [caList_snd]; exact h), caList_snd]
  have ha := l_adj (caList cre ann) I
  rw [lflip_adj h] at ha
  refine ⟨?_, ?_, ?_, ?_⟩
  · rw [fermiString_eq, ladders_apply, hl]; exact if_congr (lvalid_caList h I) rfl rfl
  · rw [fermiString_eq, ← ladj_caList, ladders_apply, lflip_adj h, ha.1, ha.2.1]
    exact if_congr (lvalid_caList h _) rfl rfl
  · rw [qubitString_eq, qladders_apply, hl, one_mul]; exact if_congr (lvalid_caList h I) rfl rfl
  · rw [qubitString_eq, ← ladj_caList, qladders_apply, lflip_adj h, ha.1, one_mul]
    exact if_congr (lvalid_caList h _) rfl rfl

theorem pow_neg_one_real (n : ℕ) : ((-1 : ℝ) ^ n = 1 ∨ (-1 : ℝ) ^ n = -1) := neg_one_pow_eq_or ℝ n

theorem choose_two_parity (r : ℕ) : ((-1 : ℤ) ^ (r.choose 2)) = if r % 4 = 0 ∨ r % 4 = 1 then 1 else -1 := by
  induction r with
  | zero => rfl
  | succ r ih =>
    have hch : (r + 1).choose 2 = r + r.choose 2 := by rw [Nat.choose_succ_succ' r 1, Nat.choose_one_right]
    rw [hch, pow_add, ih]
    have hr : r % 4 < 4 := Nat.mod_lt _ (by norm_num)
    have hpar : (-1 : ℤ) ^ r = if r % 2 = 0 then 1 else -1 := by
      split_ifs with h
      · exact Even.neg_one_pow (Nat.even_iff.2 h)
      · exact Odd.neg_one_pow (Nat.odd_iff.2 (by omega))
    rw [hpar]
    interval_cases h : r % 4
    · have h1 : r % 2 = 0 := by omega
      have h2 : (r + 1) % 4 = 1 := by omega
      simp [h1, h2]
    · have h1 : ¬ r % 2 = 0 := by omega
      have h2 : (r + 1) % 4 = 2 := by omega
      simp [h1, h2]
    · have h1 : r % 2 = 0 := by omega
      have h2 : (r + 1) % 4 = 3 := by omega
      simp [h1, h2]
    · have h1 : ¬ r % 2 = 0 := by omega
      have h2 : (r + 1) % 4 = 0 := by omega
      simp [h1, h2]

theorem exSign_fermion (r : ℕ) (gs : ℤ) : exSign r gs false = (-1) ^ (r.choose 2) * gs := by
  rw [choose_two_parity]
  unfold exSign rySign
  simp only [Nat.zero_mod, Nat.cast_zero, mul_zero, sub_zero, one_mul, Bool.false_eq_true, if_false]
  congr 1
  by_cases h0 : r % 4 = 0
  · have : r % 2 = 0 := by omega
    simp [h0, this]
  · by_cases h1 : r % 4 = 1
    · have a1 : ((r : ℤ) - 1) % 2 = 0 := by omega
      have a2 : ((r : ℤ) - 1) % 4 = 0 := by omega
      rw [if_neg (fun h => h0 h.2), if_pos ⟨a1, a2⟩, if_pos (Or.inr h1)]
    · have a2 : ¬ ((r : ℤ) - 1) % 4 = 0 := by omega
      have a3 : r ≠ 1 := by omega
      rw [if_neg (fun h => h0 h.2), if_neg (fun h => a2 h.2), if_neg a3, if_neg (by tauto)]

theorem exSign_qubit (r : ℕ) (gs : ℤ) : exSign r gs true = 1 := by simp [exSign, rySign]

theorem foldr_max_lt {l : List ℕ} {n : ℕ} (hn : 0 < n) (h : ∀ p ∈ l, p < n) : l.foldr max 0 < n := by
  induction l with
  | nil => exact hn
  | cons a l ih => exact max_lt (h a (by simp)) (ih fun p hp => h p (by simp [hp]))

theorem signIdx_lt {cre ann : List ℕ} {n : ℕ} (hn : 0 < n) (h : ∀ p ∈ cre ++ ann, p < n) : ∀ x ∈ signIdx cre ann, x < n := by
  intro x hx
  have := List.mem_range.1 (List.mem_filter.1 (List.mem_reverse.1 hx)).1
  have := foldr_max_lt hn h
  omega

theorem signIdx_not_mem' {cre ann : List ℕ} : ∀ x ∈ cre ++ ann, x ∉ signIdx cre ann := fun _ hx => signIdx_not_mem hx

/-- operator of the excitation without the staircase, disjoint indices -/
theorem exc_plain {c0 a0 : ℕ} {cs as : List ℕ} (h : ExcOk c0 cs a0 as) (I : ℕ) :
    (∀ j (hj : j < ((a0 :: as) ++ cs.reverse ++ []).length), (preL c0 cs a0 as I).testBit ((a0 :: as) ++ cs.reverse ++ [])[j] =
      ctlPol (([] : List ℕ) ≠ []) j) ↔ Reached (c0 :: cs) (a0 :: as) I ∨ Reached (c0 :: cs) (a0 :: as) (flipAll ((c0 :: cs) ++ (a0 :: as)) I) := by
  obtain ⟨h1, h2, h3, h4, h5, h6, h7, h8⟩ := h.facts
  have e := ctl_cond_plain (f := fun x => (preL c0 cs a0 as I).testBit x) (l := (a0 :: as) ++ cs.reverse ++ []) (rest := as ++ cs.reverse) (a0 := a0) (by simp)
  have e0 : (decide (([] : List ℕ) ≠ [])) = false := by simp
  rw [e0, e, reached_flip h.nd]
  unfold Reached
  have b0 : (preL c0 cs a0 as I).testBit a0 = xor (I.testBit a0) (I.testBit c0) := by rw [testBit_preL h]; simp
  have b1 : ∀ x ∈ cs, (preL c0 cs a0 as I).testBit x = xor (I.testBit x) (I.testBit c0) := by
    intro x hx
    have : x ≠ a0 := fun e => h7 (e ▸ hx)
    rw [testBit_preL h]; simp [this, hx]
  have b2 : ∀ x ∈ as, (preL c0 cs a0 as I).testBit x = xor (I.testBit x) (I.testBit a0) := by
    intro x hx
    have n1 : x ≠ a0 := fun e => h4 (e ▸ hx)
    have n2 : x ∉ cs := fun e => h8 x e hx
    rw [testBit_preL h]; simp [n1, n2, hx]
  rw [b0]
  constructor
  · rintro ⟨g0, g⟩
    have gc : ∀ x ∈ cs, I.testBit x = I.testBit c0 := fun x hx => by
      have := g x (by simp [hx]); simp only [b1 x hx] at this; simpa using this
    have ga : ∀ x ∈ as, I.testBit x = I.testBit a0 := fun x hx => by
      have := g x (by simp [hx]); simp only [b2 x hx] at this; simpa using this
    cases hb : I.testBit c0
    · have ha : I.testBit a0 = true := by rw [hb] at g0; simpa using g0
      right
      constructor
      · intro p hp; rcases List.mem_cons.1 hp with rfl | hp
        exacts [hb, (gc p hp).trans hb]
      · intro p hp; rcases List.mem_cons.1 hp with rfl | hp
        exacts [ha, (ga p hp).trans ha]
    · have ha : I.testBit a0 = false := by rw [hb] at g0; simpa using g0
      left
      constructor
      · intro p hp; rcases List.mem_cons.1 hp with rfl | hp
        exacts [hb, (gc p hp).trans hb]
      · intro p hp; rcases List.mem_cons.1 hp with rfl | hp
        exacts [ha, (ga p hp).trans ha]
  · rintro (⟨gc, ga⟩ | ⟨gc, ga⟩)
    · refine ⟨by rw [gc c0 (by simp), ga a0 (by simp)]; rfl, ?_⟩
      intro x hx
      rcases List.mem_append.1 hx with hx | hx
      · simp only [b2 x hx, ga x (by simp [hx]), ga a0 (by simp)]; rfl
      · have hx := List.mem_reverse.1 hx
        simp only [b1 x hx, gc x (by simp [hx]), gc c0 (by simp)]; rfl
    · refine ⟨by rw [gc c0 (by simp), ga a0 (by simp)]; rfl, ?_⟩
      intro x hx
      rcases List.mem_append.1 hx with hx | hx
      · simp only [b2 x hx, ga x (by simp [hx]), ga a0 (by simp)]; rfl
      · have hx := List.mem_reverse.1 hx
        simp only [b1 x hx, gc x (by simp [hx]), gc c0 (by simp)]; rfl

/-- For every angle and all lists of distinct orbitals (as many creators as annihilators, at least one): the call returns
a circuit of API gates on the qubits up to the largest index, and that circuit is exactly `exp(± θ (t - t†))`.  The
sign is `+` for qubit excitations; for fermionic ones it is `(-1)` to the number of ascending pairs in the two lists. -/
theorem C61_disjoint (θ : ℝ) (cre ann : List ℕ) (h : (cre ++ ann).Nodup) (hlen : cre.length = ann.length) (hne : cre ≠ []) (q : Bool) :
    ∃ C, compactExcitationCircuit θ cre ann q = .ok C ∧ (∀ g ∈ C, ApiGate g) ∧ (∀ n, (∀ p ∈ cre ++ ann, p < n) → C.Fits n) ∧
      IsExp ((((if q then 1 else (-1) ^ (asc cre + asc ann)) * θ : ℝ) : ℂ) • kappa q cre ann) C.op := by
  obtain ⟨c0, cs, rfl⟩ := List.exists_cons_of_ne_nil hne
  obtain ⟨a0, as, rfl⟩ : ∃ a0 as, ann = a0 :: as := by
    cases ann with
    | nil => simp at hlen
    | cons a as => exact ⟨a, as, rfl⟩
  have hok : ExcOk c0 cs a0 as := ⟨h⟩
  have hdisj : ∀ x ∈ c0 :: cs, x ∉ a0 :: as := fun x hx hx' => (List.nodup_append.1 h).2.2 x hx x hx' rfl
  have f1 : (c0 :: cs).filter (· ∉ a0 :: as) = c0 :: cs := List.filter_eq_self.2 (fun x hx => by simpa using hdisj x hx)
  have f2 : (a0 :: as).filter (· ∉ c0 :: cs) = a0 :: as := List.filter_eq_self.2 (fun x hx => by
    have : x ∉ c0 :: cs := fun hx' => hdisj x hx' hx
    simpa using this)
  have f3 : (c0 :: cs).filter (· ∈ a0 :: as) = [] := List.filter_eq_nil_iff.2 (fun x hx => by simpa using hdisj x hx)
  obtain ⟨E, hE, hEon, hEop⟩ := qubitExcitation_ok hok (gs := []) (by simp) θ 1 q
  have hEop' : ∀ ψ I, E.op ψ I = if Reached (c0 :: cs) (a0 :: as) I ∨ Reached (c0 :: cs) (a0 :: as) (flipAll ((c0 :: cs) ++ (a0 :: as)) I) then
      (Real.cos (((exSign (a0 :: as).length 1 q : ℤ) : ℝ) * θ) : ℂ) * ψ I + (if I.testBit c0 then (Real.sin (((exSign (a0 :: as).length 1 q : ℤ) : ℝ) * θ) : ℂ)
        else -(Real.sin (((exSign (a0 :: as).length 1 q : ℤ) : ℝ) * θ) : ℂ)) * ψ (flipAll ((c0 :: cs) ++ (a0 :: as)) I) else ψ I := by
    intro ψ I
    rw [hEop]
    exact if_congr (exc_plain hok I) rfl rfl
  have hrf := reached_flip h
  have hcF : ∀ I, Reached (c0 :: cs) (a0 :: as) (flipAll ((c0 :: cs) ++ (a0 :: as)) I) → I.testBit c0 = false :=
    fun I hI => ((hrf I).1 hI).1 c0 (by simp)
  have hc : ∀ I, Reached (c0 :: cs) (a0 :: as) I → I.testBit c0 = true := fun I hI => hI.1 c0 (by simp)
  have hFF := flipAll_flipAll h
  cases q
  · -- fermions
    have hidx := signIdx_not_mem' (cre := c0 :: cs) (ann := a0 :: as)
    have hnd := signIdx_nodup (c0 :: cs) (a0 :: as)
    have hSon := stairC_on hnd (hidx c0 (by simp))
    refine ⟨stairC c0 (signIdx (c0 :: cs) (a0 :: as)) ++ E ++ (stairC c0 (signIdx (c0 :: cs) (a0 :: as))).adjoint, ?_, ?_, ?_, ?_⟩
    · unfold compactExcitationCircuit
      rw [if_neg (not_not.2 hlen)]
      simp only [f1, f2, f3, List.dedup_nil, List.length_nil, gt_iff_lt, Nat.not_lt_zero, if_false, pure, Except.pure, except_ok_bind,
        Bool.false_eq_true]
      rw [fermionSign_ok, except_ok_bind, hE, except_ok_bind]
      simp [addCircuit_eq]
    · intro g hg
      rcases List.mem_append.1 hg with hg | hg
      · rcases List.mem_append.1 hg with hg | hg
        exacts [(hSon g hg).1, (hEon g hg).1]
      · exact (hSon.adjoint g hg).1
    · intro n hn
      have hpos : 0 < n := lt_of_le_of_lt (Nat.zero_le _) (hn c0 (by simp))
      have hs1 : ∀ x ∈ c0 :: signIdx (c0 :: cs) (a0 :: as), x < n := by
        intro x hx
        rcases List.mem_cons.1 hx with rfl | hx
        · exact hn x (by simp)
        · exact signIdx_lt hpos hn x hx
      have hs2 : ∀ x ∈ (c0 :: cs) ++ (a0 :: as) ++ [], x < n := by simpa using hn
      intro g hg
      rcases List.mem_append.1 hg with hg | hg
      · rcases List.mem_append.1 hg with hg | hg
        · exact ⟨hs1 _ (hSon g hg).2.1, hs1 _ (hSon g hg).2.2⟩
        · exact ⟨hs2 _ (hEon g hg).2.1, hs2 _ (hEon g hg).2.2⟩
      · exact ⟨hs1 _ (hSon.adjoint g hg).2.1, hs1 _ (hSon.adjoint g hg).2.2⟩
    · rw [kappa, if_neg (by simp), if_neg (by simp), Circuit.op_append, Circuit.op_append]
      refine compact_finish (V := Reached (c0 :: cs) (a0 :: as)) (s := lsign (caList (c0 :: cs) (a0 :: as)))
        (χ := fun I => psign (par (signIdx (c0 :: cs) (a0 :: as)) I)) (F := flipAll ((c0 :: cs) ++ (a0 :: as))) (c0 := c0)
        (S := ((exSign (a0 :: as).length 1 false : ℤ) : ℝ)) (pow_neg_one_real _) ?_ hFF (lsign_sq _) ?_ (fun ψ I => (strings_apply h ψ I).1)
        (fun ψ I => (strings_apply h ψ I).2.1) (fun I => Iff.rfl) hc hcF ?_ θ ?_
      · rw [exSign_fermion]; push_cast; rw [mul_one]; exact pow_neg_one_real _
      · intro I
        rw [par_congr]
        intro x hx
        rw [testBit_flipAll h]
        have : x ∉ (c0 :: cs) ++ (a0 :: as) := fun hx' => hidx x hx' hx
        simp only [this, decide_false, Bool.xor_false]
      · intro I hI
        rw [lsign_disjoint h hI.1 hI.2, exSign_fermion, hlen]
        push_cast; ring
      · intro ψ I
        exact stair_conj hnd hidx h (List.Subset.refl _) (by simp) (P := fun I => Reached (c0 :: cs) (a0 :: as) I ∨
          Reached (c0 :: cs) (a0 :: as) (flipAll ((c0 :: cs) ++ (a0 :: as)) I)) (by
            intro I J hIJ
            rw [hrf, hrf]
            have e : ∀ b, (∀ p ∈ c0 :: cs, I.testBit p = b) ↔ ∀ p ∈ c0 :: cs, J.testBit p = b := fun b =>
              forall_congr' fun p => imp_congr_right fun hp => by rw [hIJ p (List.mem_append_left _ hp)]
            have e' : ∀ b, (∀ p ∈ a0 :: as, I.testBit p = b) ↔ ∀ p ∈ a0 :: as, J.testBit p = b := fun b =>
              forall_congr' fun p => imp_congr_right fun hp => by rw [hIJ p (List.mem_append_right _ hp)]
            unfold Reached
            rw [e true, e' false, e false, e' true]) hEop' ψ I
  · refine ⟨E, ?_, fun g hg => (hEon g hg).1, ?_, ?_⟩
    · unfold compactExcitationCircuit
      rw [if_neg (not_not.2 hlen)]
      simp only [f1, f2, f3, List.dedup_nil, List.length_nil, gt_iff_lt, Nat.not_lt_zero, if_false, pure, Except.pure, except_ok_bind, if_true]
      rw [hE, except_ok_bind]
      simp [addCircuit_eq]
    · intro n hn g hg
      have hs2 : ∀ x ∈ (c0 :: cs) ++ (a0 :: as) ++ [], x < n := by simpa using hn
      exact ⟨hs2 _ (hEon g hg).2.1, hs2 _ (hEon g hg).2.2⟩
    · rw [kappa, if_pos rfl, if_pos rfl]
      refine compact_finish (V := Reached (c0 :: cs) (a0 :: as)) (s := fun _ => 1)
        (χ := fun I => 1) (F := flipAll ((c0 :: cs) ++ (a0 :: as))) (c0 := c0)
        (S := 1) (Or.inl rfl) (Or.inl rfl) hFF (by simp) (by simp) (fun ψ I => (strings_apply h ψ I).2.2.1)
        (fun ψ I => (strings_apply h ψ I).2.2.2) (fun I => Iff.rfl) hc hcF (by simp) θ ?_
      intro ψ I
      rw [hEop', exSign_qubit]; simp

end QF
