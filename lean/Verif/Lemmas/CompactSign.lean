import Verif.Lemmas.CompactStair
import Verif.Spec.Compact

/-! Products of ladder operators in closed form, and their signs. -/
namespace QF

/-- product of ladder operators -/
noncomputable def ladders (l : List (Bool × ℕ)) : Op := (l.map fun x => ladder x.1 x.2).prod
noncomputable def qladders (l : List (Bool × ℕ)) : Op := (l.map fun x => qladder x.1 x.2).prod

/-- the ladder operators `l` (rightmost acting first) can have produced `I` -/
def lvalid : List (Bool × ℕ) → ℕ → Bool
  | [], _ => true
  | x :: l, I => decide (I.testBit x.2 = x.1) && lvalid l (flipBit I x.2)

noncomputable def lsign : List (Bool × ℕ) → ℕ → ℂ
  | [], _ => 1
  | x :: l, I => fsign I x.2 * lsign l (flipBit I x.2)

def lflip : List (Bool × ℕ) → ℕ → ℕ
  | [], I => I
  | x :: l, I => lflip l (flipBit I x.2)

theorem ladders_apply : ∀ (l : List (Bool × ℕ)) (ψ : St) (I : ℕ), ladders l ψ I = if lvalid l I then lsign l I * ψ (lflip l I) else 0
  | [], ψ, I => by simp [ladders, lvalid, lsign, lflip]
  | x :: l, ψ, I => by
    have ih := ladders_apply l ψ (flipBit I x.2)
    unfold ladders at ih ⊢
    rw [List.map_cons, List.prod_cons, Module.End.mul_apply, ladder_apply, ih]
    by_cases h : I.testBit x.2 = x.1
    · rw [if_pos h]
      simp only [lvalid, h, decide_true, Bool.true_and, lsign, lflip]
      split_ifs <;> ring
    · rw [if_neg h]
      simp [lvalid, h]

theorem qladders_apply : ∀ (l : List (Bool × ℕ)) (ψ : St) (I : ℕ), qladders l ψ I = if lvalid l I then ψ (lflip l I) else 0
  | [], ψ, I => by simp [qladders, lvalid, lflip]
  | x :: l, ψ, I => by
    have ih := qladders_apply l ψ (flipBit I x.2)
    unfold qladders at ih ⊢
    rw [List.map_cons, List.prod_cons, Module.End.mul_apply, qladder_apply, ih]
    by_cases h : I.testBit x.2 = x.1
    · rw [if_pos h]
      simp only [lvalid, h, decide_true, Bool.true_and, lflip]
    · rw [if_neg h]
      simp [lvalid, h]

/-- creation operators `cre` to the left of annihilation operators `ann` -/
def caList (cre ann : List ℕ) : List (Bool × ℕ) := cre.map (fun p => (true, p)) ++ ann.map (fun p => (false, p))

theorem fermiString_eq (cre ann : List ℕ) : fermiString cre ann = ladders (caList cre ann) := by
  simp [fermiString, ladders, caList, Function.comp_def, aDag, aAnn]

theorem qubitString_eq (cre ann : List ℕ) : qubitString cre ann = qladders (caList cre ann) := by
  simp [qubitString, qladders, caList, Function.comp_def]

theorem caList_snd (cre ann : List ℕ) : (caList cre ann).map Prod.snd = cre ++ ann := by
  simp [caList, Function.comp_def]

theorem lvalid_nodup : ∀ (l : List (Bool × ℕ)), (l.map Prod.snd).Nodup → ∀ I, lvalid l I = true ↔ ∀ x ∈ l, I.testBit x.2 = x.1
  | [], _, _ => by simp [lvalid]
  | x :: l, h, I => by
    rw [List.map_cons, List.nodup_cons] at h
    simp only [lvalid, Bool.and_eq_true, decide_eq_true_eq, lvalid_nodup l h.2, List.mem_cons, forall_eq_or_imp]
    refine and_congr_right fun _ => ?_
    refine forall_congr' fun y => imp_congr_right fun hy => ?_
    have : y.2 ≠ x.2 := fun e => h.1 (e ▸ List.mem_map_of_mem hy)
    rw [testBit_flipBit, if_neg this]

theorem lflip_nodup : ∀ (l : List (Bool × ℕ)), (l.map Prod.snd).Nodup → ∀ I, lflip l I = flipAll (l.map Prod.snd) I
  | [], _, _ => rfl
  | x :: l, h, I => by
    have h' := h
    rw [List.map_cons, List.nodup_cons] at h
    rw [lflip, lflip_nodup l h.2]
    apply eq_of_bits; intro q
    rw [testBit_flipAll h.2, testBit_flipAll h', testBit_flipBit, List.map_cons]
    by_cases e : q = x.2
    · subst e
      rw [if_pos rfl, decide_eq_false h.1, decide_eq_true (List.mem_cons_self ..)]; simp
    · rw [if_neg e]; simp [e]

/-- product of the signs `(-1)^{occupied below}` of the orbitals `l` -/
noncomputable def fprod (l : List ℕ) (I : ℕ) : ℂ := (l.map (fsign I)).prod

theorem fprod_flip (p I : ℕ) : ∀ l : List ℕ, fprod l (flipBit I p) = (-1) ^ l.countP (p < ·) * fprod l I
  | [] => by simp [fprod]
  | q :: l => by
    have ih := fprod_flip p I l
    unfold fprod at ih ⊢
    rw [List.map_cons, List.prod_cons, ih, List.map_cons, List.prod_cons, fsign_flip, List.countP_cons]
    by_cases h : p < q
    · simp [h, pow_succ]; ring
    · simp [h]; ring

theorem lsign_eq : ∀ (l : List (Bool × ℕ)) (I : ℕ), lsign l I = (-1) ^ asc (l.map Prod.snd) * fprod (l.map Prod.snd) I
  | [], I => by simp [lsign, asc, fprod]
  | x :: l, I => by
    rw [lsign, lsign_eq l, fprod_flip, List.map_cons, asc, pow_add]
    unfold fprod
    rw [List.map_cons, List.prod_cons]; ring

theorem asc_append (l m : List ℕ) : asc (l ++ m) = asc l + asc m + (l.map fun p => m.countP (p < ·)).sum := by
  induction l with
  | nil => simp [asc]
  | cons p l ih => rw [List.cons_append, asc, ih, asc, List.countP_append, List.map_cons, List.sum_cons]; ring

/-- the exponent `∑ₚ n_below(p)` counted by occupied orbitals -/
theorem sum_nBelow (l : List ℕ) (I N : ℕ) (hN : ∀ p ∈ l, p ≤ N) :
    (l.map (nBelow I)).sum = ∑ j ∈ Finset.range N, if I.testBit j then l.countP (j < ·) else 0 := by
  induction l with
  | nil => simp
  | cons p l ih =>
    rw [List.map_cons, List.sum_cons, ih (fun q hq => hN q (by simp [hq]))]
    have e : nBelow I p = ∑ j ∈ Finset.range N, if I.testBit j then (if j < p then 1 else 0) else 0 := by
      have hp := hN p (by simp)
      have : nBelow I p = ∑ j ∈ Finset.range p, if I.testBit j then 1 else 0 := by
        clear hp hN ih
        induction p with
        | zero => simp [nBelow]
        | succ p ih => rw [nBelow_succ, ih, Finset.sum_range_succ]
      rw [this]
      rw [← Finset.sum_subset (Finset.range_subset_range.2 hp) (by
        intro j _ hj
        have : ¬ j < p := by simpa using hj
        simp [this])]
      apply Finset.sum_congr rfl
      intro j hj
      simp [Finset.mem_range.1 hj]
    rw [e, ← Finset.sum_add_distrib]
    apply Finset.sum_congr rfl
    intro j _
    rw [List.countP_cons]
    by_cases h1 : I.testBit j <;> by_cases h2 : j < p <;> simp [h1, h2, add_comm]

theorem fprod_eq (l : List ℕ) (I : ℕ) : fprod l I = (-1) ^ (l.map (nBelow I)).sum := by
  induction l with
  | nil => simp [fprod]
  | cons p l ih =>
    unfold fprod at ih ⊢
    rw [List.map_cons, List.prod_cons, ih, List.map_cons, List.sum_cons, pow_add]; rfl

theorem signColumn_eq {l : List ℕ} {j : ℕ} (h : j ∉ l) : signColumn l j = decide (l.countP (j < ·) % 2 = 1) := by
  unfold signColumn
  rw [if_neg h]
  clear h
  suffices ∀ b : Bool, l.foldl (fun b p => b ^^ decide (j < p)) b = xor b (decide (l.countP (j < ·) % 2 = 1)) by
    simpa using this false
  induction l with
  | nil => simp
  | cons p l ih =>
    intro b
    rw [List.foldl_cons, ih, List.countP_cons]
    by_cases hp : j < p
    · have : (decide ((l.countP (j < ·) + 1) % 2 = 1)) = !decide (l.countP (j < ·) % 2 = 1) := by
        by_cases h : l.countP (j < ·) % 2 = 1
        · have : ¬ (l.countP (j < ·) + 1) % 2 = 1 := by omega
          simp [h, this]
        · have : (l.countP (j < ·) + 1) % 2 = 1 := by omega
          simp [h, this]
      simp [hp, this]
    · simp [hp]

theorem psign_par (l : List ℕ) (I : ℕ) : psign (par l I) = (l.map fun j => if I.testBit j then (-1 : ℂ) else 1).prod := by
  induction l with
  | nil => simp [psign]
  | cons i l ih =>
    rw [par_cons, List.map_cons, List.prod_cons, ← ih]
    cases I.testBit i <;> cases par l I <;> simp [psign]

theorem le_foldr_max {l : List ℕ} {p : ℕ} (h : p ∈ l) : p ≤ l.foldr max 0 := by
  induction l with
  | nil => cases h
  | cons q l ih =>
    rcases List.mem_cons.1 h with rfl | h
    · simp
    · exact le_trans (ih h) (by simp)

/-- splitting of the sign into the surviving Z operators and the indices themselves -/
theorem fprod_split (cre ann : List ℕ) (I : ℕ) : fprod (cre ++ ann) I =
    psign (par (signIdx cre ann) I) * ∏ j ∈ (cre ++ ann).toFinset, if I.testBit j then (-1 : ℂ) ^ (cre ++ ann).countP (j < ·) else 1 := by
  have hN : ∀ p ∈ cre ++ ann, p ≤ (cre ++ ann).foldr max 0 + 1 := fun p hp => le_trans (le_foldr_max hp) (Nat.le_succ _)
  have hN' : ∀ p ∈ cre ++ ann, p < (cre ++ ann).foldr max 0 + 1 := fun p hp => Nat.lt_succ_of_le (le_foldr_max hp)
  rw [fprod_eq, sum_nBelow _ _ _ hN, psign_par]
  unfold signIdx
  generalize (cre ++ ann).foldr max 0 + 1 = N at hN hN' ⊢
  generalize cre ++ ann = l at hN hN' ⊢
  rw [List.map_reverse, List.prod_reverse, ← Finset.prod_pow_eq_pow_sum]
  have e1 : (((List.range N).filter (signColumn l)).map fun j => if I.testBit j then (-1 : ℂ) else 1).prod =
      ∏ j ∈ Finset.range N, if signColumn l j then (if I.testBit j then (-1 : ℂ) else 1) else 1 := by
    have := List.prod_toFinset (fun j => if I.testBit j then (-1 : ℂ) else 1) (List.nodup_range.filter (p := signColumn l) (l := List.range N))
    rw [← this, List.toFinset_filter, List.toFinset_range, Finset.prod_filter]
  have e2 : (∏ j ∈ l.toFinset, if I.testBit j then (-1 : ℂ) ^ l.countP (j < ·) else 1) =
      ∏ j ∈ Finset.range N, if j ∈ l then (if I.testBit j then (-1 : ℂ) ^ l.countP (j < ·) else 1) else 1 := by
    have hsub : l.toFinset ⊆ Finset.range N := fun j hj => Finset.mem_range.2 (hN' j (List.mem_toFinset.1 hj))
    rw [← Finset.prod_subset hsub (by
      intro j _ hj
      rw [if_neg (fun h => hj (List.mem_toFinset.2 h))])]
    apply Finset.prod_congr rfl
    intro j hj
    rw [if_pos (List.mem_toFinset.1 hj)]
  rw [e1, e2, ← Finset.prod_mul_distrib]
  apply Finset.prod_congr rfl
  intro j _
  by_cases hj : j ∈ l
  · have : signColumn l j = false := by simp [signColumn, hj]
    rw [this, if_pos hj]
    cases I.testBit j <;> simp
  · rw [signColumn_eq hj, if_neg hj]
    cases I.testBit j
    · simp
    · rcases Nat.mod_two_eq_zero_or_one (l.countP (j < ·)) with h | h
      · have := Even.neg_one_pow (α := ℂ) (Nat.even_iff.2 h)
        simp [h, this]
      · have := Odd.neg_one_pow (α := ℂ) (Nat.odd_iff.2 h)
        simp [h, this]

theorem sum_count_self {l : List ℕ} (h : l.Nodup) : (l.map fun p => l.countP (p < ·)).sum = l.length.choose 2 := by
  induction l with
  | nil => simp
  | cons a l ih =>
    rw [List.nodup_cons] at h
    have hne : ∀ p ∈ l, p ≠ a := fun p hp e => h.1 (e ▸ hp)
    have e : ∀ m : List ℕ, (∀ p ∈ m, p ≠ a) → (m.map fun p => (a :: l).countP (p < ·)).sum + m.countP (a < ·) =
        (m.map fun p => l.countP (p < ·)).sum + m.length := by
      intro m hm
      induction m with
      | nil => simp
      | cons p m ihm =>
        have := ihm (fun q hq => hm q (by simp [hq]))
        have hp := hm p (by simp)
        rw [List.map_cons, List.sum_cons, List.map_cons, List.sum_cons, List.countP_cons, List.countP_cons, List.length_cons]
        rcases Nat.lt_or_gt_of_ne hp with hlt | hlt
        · have : ¬ a < p := by omega
          simp [hlt, this]; omega
        · have : ¬ p < a := by omega
          simp [hlt, this]; omega
    have := e l hne
    have e0 : ¬ a < a := by omega
    rw [List.map_cons, List.sum_cons, List.countP_cons]
    simp only [e0, decide_false, Bool.false_eq_true, if_false, add_zero]
    rw [ih h.2] at this
    have hch : (l.length + 1).choose 2 = l.length + l.length.choose 2 := by
      rw [Nat.choose_succ_succ' l.length 1, Nat.choose_one_right]
    rw [List.length_cons, hch]
    omega

/-- the sign of an excitation from the closed formula -/
theorem lsign_disjoint {cre ann : List ℕ} (h : (cre ++ ann).Nodup) {I : ℕ} (hc : ∀ p ∈ cre, I.testBit p = true)
    (ha : ∀ p ∈ ann, I.testBit p = false) : lsign (caList cre ann) I =
      (-1) ^ (asc cre + asc ann) * (-1) ^ (cre.length.choose 2) * psign (par (signIdx cre ann) I) := by
  rw [lsign_eq, caList_snd, fprod_split, asc_append]
  have e : (∏ j ∈ (cre ++ ann).toFinset, if I.testBit j then (-1 : ℂ) ^ (cre ++ ann).countP (j < ·) else 1) =
      (-1) ^ (cre.length.choose 2 + (cre.map fun p => ann.countP (p < ·)).sum) := by
    have hd := List.nodup_append.1 h
    rw [List.prod_toFinset _ h, List.map_append, List.prod_append]
    have e2 : (ann.map fun j => if I.testBit j then (-1 : ℂ) ^ (cre ++ ann).countP (j < ·) else 1) = ann.map fun _ => 1 := by
      apply List.map_congr_left; intro p hp; simp [ha p hp]
    have e1 : (cre.map fun j => if I.testBit j then (-1 : ℂ) ^ (cre ++ ann).countP (j < ·) else 1) =
        cre.map fun j => (-1 : ℂ) ^ (cre.countP (j < ·) + ann.countP (j < ·)) := by
      apply List.map_congr_left; intro p hp; rw [if_pos (hc p hp), List.countP_append]
    rw [e1, e2, ← sum_count_self hd.1]
    simp only [List.map_const', List.prod_replicate, one_pow, mul_one]
    have : ∀ m : List ℕ, (m.map fun j => (-1 : ℂ) ^ (cre.countP (j < ·) + ann.countP (j < ·))).prod =
        (-1) ^ ((m.map fun p => cre.countP (p < ·)).sum + (m.map fun p => ann.countP (p < ·)).sum) := by
      intro m
      induction m with
      | nil => simp
      | cons p m ih => rw [List.map_cons, List.prod_cons, ih, List.map_cons, List.sum_cons, List.map_cons, List.sum_cons, ← pow_add]; congr 1; ring
    exact this cre
  rw [e, pow_add, pow_add]
  have hs : ((-1 : ℂ) ^ (cre.map fun p => ann.countP (p < ·)).sum) * (-1) ^ (cre.map fun p => ann.countP (p < ·)).sum = 1 := by
    rw [← mul_pow]; norm_num
  linear_combination ((-1) ^ (asc cre + asc ann) * (-1) ^ (cre.length.choose 2) * psign (par (signIdx cre ann) I)) * hs

/-! ### Adjoints -/

/-- the adjoint of a product of ladder operators -/
def ladj (l : List (Bool × ℕ)) : List (Bool × ℕ) := (l.map fun x => (!x.1, x.2)).reverse

theorem ladj_caList (cre ann : List ℕ) : ladj (caList cre ann) = caList ann.reverse cre.reverse := by
  simp [ladj, caList, Function.comp_def, List.map_reverse]

theorem l_snoc : ∀ (l : List (Bool × ℕ)) (x : Bool × ℕ) (I : ℕ), lflip (l ++ [x]) I = flipBit (lflip l I) x.2 ∧
    lvalid (l ++ [x]) I = (lvalid l I && decide ((lflip l I).testBit x.2 = x.1)) ∧
    lsign (l ++ [x]) I = lsign l I * fsign (lflip l I) x.2
  | [], x, I => ⟨rfl, by simp only [List.nil_append, lvalid, lflip, Bool.and_true, Bool.true_and]; exact decide_eq_decide.2 Iff.rfl, by simp [lflip, lsign]⟩
  | y :: l, x, I => by
    obtain ⟨h1, h2, h3⟩ := l_snoc l x (flipBit I y.2)
    refine ⟨?_, ?_, ?_⟩
    · rw [List.cons_append, lflip, h1, lflip]
    · rw [List.cons_append, lvalid, h2, lvalid, lflip, Bool.and_assoc]
    · rw [List.cons_append, lsign, h3, lsign, lflip, mul_assoc]

theorem l_adj : ∀ (l : List (Bool × ℕ)) (I : ℕ), lvalid (ladj l) I = lvalid l (lflip (ladj l) I) ∧
    lsign (ladj l) I = lsign l (lflip (ladj l) I) ∧ lflip l (lflip (ladj l) I) = I
  | [], I => ⟨rfl, rfl, rfl⟩
  | x :: l, I => by
    obtain ⟨h1, h2, h3⟩ := l_adj l I
    have e : ladj (x :: l) = ladj l ++ [(!x.1, x.2)] := by simp [ladj]
    obtain ⟨g1, g2, g3⟩ := l_snoc (ladj l) (!x.1, x.2) I
    rw [e, g1, g2, g3]
    refine ⟨?_, ?_, ?_⟩
    · rw [lvalid, flipBit_flipBit, h1, testBit_flipBit, if_pos rfl, Bool.and_comm]
      congr 1
      cases (lflip (ladj l) I).testBit x.2 <;> cases x.1 <;> rfl
    · rw [lsign, flipBit_flipBit, h2, fsign_flip, if_neg (lt_irrefl _), mul_comm]
    · rw [lflip, flipBit_flipBit, h3]

theorem lsign_sq : ∀ (l : List (Bool × ℕ)) (I : ℕ), lsign l I * lsign l I = 1
  | [], I => by simp [lsign]
  | x :: l, I => by
    rw [lsign]
    linear_combination (lsign l (flipBit I x.2) * lsign l (flipBit I x.2)) * fsign_sq I x.2 + lsign_sq l (flipBit I x.2)

/-! ### Exponentials of excitation operators -/

theorem pow_cubic {K : Op} (hK : K * K * K = -K) (z : ℂ) : ∀ (k : ℕ) (ψ : St) (I : ℕ), ((z • K) ^ k) ψ I =
    (z * Complex.I) ^ k * ((-(K (K ψ) I) - Complex.I * K ψ I) / 2) + (-(z * Complex.I)) ^ k * ((-(K (K ψ) I) + Complex.I * K ψ I) / 2) +
      0 ^ k * (ψ I + K (K ψ) I)
  | 0, ψ, I => by simp; ring
  | k + 1, ψ, I => by
    have h3 : ∀ φ J, K (K (K φ)) J = -(K φ J) := by
      intro φ J
      have := congrArg (fun A : Op => A φ J) hK
      simpa [Module.End.mul_apply] using this
    rw [pow_succ, Module.End.mul_apply, LinearMap.smul_apply, map_smul, Pi.smul_apply, smul_eq_mul, pow_cubic hK z k (K ψ) I, h3]
    rw [pow_succ, pow_succ, pow_succ]
    linear_combination (((z * Complex.I) ^ k + (-(z * Complex.I)) ^ k) * z * (K ψ I) / 2) * Complex.I_mul_I

theorem isExp_cubic {K : Op} (hK : K * K * K = -K) (θ : ℝ) :
    IsExp ((θ : ℂ) • K) (1 + (Real.sin θ : ℂ) • K + (1 - (Real.cos θ : ℂ)) • (K * K)) := by
  intro ψ I
  have h1 := (Complex.hasSum_exp_series (θ * Complex.I)).mul_right ((-(K (K ψ) I) - Complex.I * K ψ I) / 2)
  have h2 := (Complex.hasSum_exp_series (-(θ * Complex.I))).mul_right ((-(K (K ψ) I) + Complex.I * K ψ I) / 2)
  have h0 := (Complex.hasSum_exp_series 0).mul_right (ψ I + K (K ψ) I)
  have h := (h1.add h2).add h0
  convert! h using 1
  · funext k; rw [pow_cubic hK]; ring
  · have e1 : Complex.exp (θ * Complex.I) = Real.cos θ + Real.sin θ * Complex.I := by
      rw [Complex.exp_mul_I, Complex.ofReal_cos, Complex.ofReal_sin]
    have e2 : Complex.exp (-(θ * Complex.I)) = Real.cos θ - Real.sin θ * Complex.I := by
      rw [← neg_mul, Complex.exp_mul_I, Complex.cos_neg, Complex.sin_neg, Complex.ofReal_cos, Complex.ofReal_sin]; ring
    rw [e1, e2, Complex.exp_zero]
    simp only [LinearMap.add_apply, LinearMap.smul_apply, Module.End.one_apply, Pi.add_apply, Pi.smul_apply, smul_eq_mul, Module.End.mul_apply]
    linear_combination (Real.sin θ * K ψ I) * Complex.I_mul_I

/-- `t - t'` where `t` moves amplitude along an involution `F` with signs -/
theorem excite_powers {T T' : Op} {V : ℕ → Prop} [DecidablePred V] {s : ℕ → ℂ} {F : ℕ → ℕ} (hF : ∀ I, F (F I) = I) (hs : ∀ I, s I * s I = 1)
    (hV : ∀ I, V I → ¬ V (F I)) (hT : ∀ ψ I, T ψ I = if V I then s I * ψ (F I) else 0)
    (hT' : ∀ ψ I, T' ψ I = if V (F I) then s (F I) * ψ (F I) else 0) :
    (∀ ψ I, (T - T') ψ I = if V I then s I * ψ (F I) else if V (F I) then -(s (F I) * ψ (F I)) else 0) ∧
    (∀ ψ I, (T - T') ((T - T') ψ) I = if V I ∨ V (F I) then -(ψ I) else 0) ∧
    (T - T') * (T - T') * (T - T') = -(T - T') := by
  have hK : ∀ ψ I, (T - T') ψ I = if V I then s I * ψ (F I) else if V (F I) then -(s (F I) * ψ (F I)) else 0 := by
    intro ψ I
    rw [LinearMap.sub_apply, Pi.sub_apply, hT, hT']
    by_cases h : V I
    · rw [if_pos h, if_pos h, if_neg (hV I h), sub_zero]
    · rw [if_neg h, if_neg h]; split_ifs <;> simp
  have hKK : ∀ ψ I, (T - T') ((T - T') ψ) I = if V I ∨ V (F I) then -(ψ I) else 0 := by
    intro ψ I
    rw [hK]
    by_cases h : V I
    · rw [if_pos h, if_pos (Or.inl h), hK, if_neg (hV I h), hF, if_pos h]
      linear_combination (-(ψ I)) * hs I
    · rw [if_neg h]
      by_cases h' : V (F I)
      · rw [if_pos h', if_pos (Or.inr h'), hK, if_pos h', hF]
        linear_combination (-(ψ I)) * hs (F I)
      · rw [if_neg h', if_neg (by tauto)]
  refine ⟨hK, hKK, ?_⟩
  apply Op.ext'; intro ψ I
  have e : ((T - T') * (T - T') * (T - T')) ψ I = (T - T') ((T - T') ((T - T') ψ)) I := rfl
  rw [e, hKK, LinearMap.neg_apply, Pi.neg_apply, hK]
  by_cases h : V I
  · simp [h]
  · by_cases h' : V (F I) <;> simp [h, h']

/-- the two exponentials `exp(± θ K)` differ unless `sin θ K` vanishes -/
theorem exp_sign_differ {K U : Op} (hK : K * K * K = -K) {θ : ℝ} (hθ : Real.sin θ ≠ 0) (h1 : IsExp ((θ : ℂ) • K) U)
    (h2 : IsExp (((-θ : ℝ) : ℂ) • K) U) : K = 0 := by
  have e1 := h1.unique (isExp_cubic hK θ)
  have e2 := h2.unique (isExp_cubic hK (-θ))
  rw [e1, Real.sin_neg, Real.cos_neg] at e2
  apply Op.ext'; intro ψ I
  have := congrArg (fun A : Op => A ψ I) e2
  simp only [LinearMap.add_apply, LinearMap.smul_apply, Module.End.one_apply, Pi.add_apply, Pi.smul_apply, smul_eq_mul, Module.End.mul_apply,
    Complex.ofReal_neg] at this
  have h3 : (Real.sin θ : ℂ) * K ψ I = 0 := by linear_combination this / 2
  rcases mul_eq_zero.1 h3 with h4 | h4
  · exact absurd (by exact_mod_cast h4) hθ
  · exact h4

/-- exponential of `t - t'` where `t` moves amplitude along an involution `F` with signs -/
theorem isExp_excite {T T' : Op} {V : ℕ → Prop} [DecidablePred V] {s : ℕ → ℂ} {F : ℕ → ℕ} (hF : ∀ I, F (F I) = I) (hs : ∀ I, s I * s I = 1)
    (hV : ∀ I, V I → ¬ V (F I)) (hT : ∀ ψ I, T ψ I = if V I then s I * ψ (F I) else 0)
    (hT' : ∀ ψ I, T' ψ I = if V (F I) then s (F I) * ψ (F I) else 0) (θ : ℝ) {U : Op}
    (hU : ∀ ψ I, U ψ I = if V I then Real.cos θ * ψ I + Real.sin θ * (s I * ψ (F I))
      else if V (F I) then Real.cos θ * ψ I - Real.sin θ * (s (F I) * ψ (F I)) else ψ I) : IsExp ((θ : ℂ) • (T - T')) U := by
  obtain ⟨hK, hKK, hcub⟩ := excite_powers hF hs hV hT hT'
  have := isExp_cubic hcub θ
  convert! this using 1
  apply Op.ext'; intro ψ I
  have e : (1 + (Real.sin θ : ℂ) • (T - T') + (1 - (Real.cos θ : ℂ)) • ((T - T') * (T - T'))) ψ I =
      ψ I + Real.sin θ * (T - T') ψ I + (1 - Real.cos θ) * (T - T') ((T - T') ψ) I := rfl
  rw [hU, e, hKK, hK]
  by_cases h : V I
  · simp [h]; ring
  · by_cases h' : V (F I)
    · simp [h, h']; ring
    · simp [h, h']

end QF
