import Verif.Props.CompactMain

/-!
C61: generalised double excitations with one shared index (`p† g† g r` and its relatives).
-/
namespace QF

/-- the determinants reached by a single excitation `p ← r` controlled by `g` -/
def ReachedG (p g r I : ℕ) : Prop := I.testBit p = true ∧ I.testBit g = true ∧ I.testBit r = false

instance (p g r : ℕ) : DecidablePred (ReachedG p g r) := fun _ => by unfold ReachedG; infer_instance

theorem exc_gsd {p g r : ℕ} (hpr : p ≠ r) (hgp : g ≠ p) (hgr : g ≠ r) (I : ℕ) :
    (∀ j (hj : j < ([r] ++ ([] : List ℕ).reverse ++ [g]).length), (preL p [] r [] I).testBit ([r] ++ ([] : List ℕ).reverse ++ [g])[j] =
      ctlPol ([g] ≠ []) j) ↔ ReachedG p g r I ∨ ReachedG p g r (flipAll ([p] ++ [r]) I) := by
  have hnd : ([p] ++ [r] : List ℕ).Nodup := by simp [hpr]
  have h : ExcOk p [] r [] := ⟨hnd⟩
  have e0 : (decide ([g] ≠ ([] : List ℕ))) = true := by simp
  rw [e0, ctl_cond_gsd (f := fun x => (preL p [] r [] I).testBit x)]
  unfold ReachedG
  simp only [List.reverse_nil, List.append_nil, List.mem_append, List.mem_singleton, forall_eq_or_imp, forall_eq, testBit_preL h,
    testBit_flipAll hnd]
  simp only [hgr, hgp, hpr, hpr.symm, List.not_mem_nil, if_true, if_false, or_true, true_or, or_false, decide_true, decide_false]
  cases I.testBit p <;> cases I.testBit g <;> cases I.testBit r <;> simp

/-- assembling the fermionic circuit for a shared index -/
theorem gsd_core {p g r : ℕ} (hpr : p ≠ r) (hgp : g ≠ p) (hgr : g ≠ r) {cre ann idx : List ℕ} (hidx : idx.Nodup)
    (hn : ∀ x ∈ [p, r, g], x ∉ idx)
    (hv : ∀ I, lvalid (caList cre ann) I = true ↔ ReachedG p g r I) (hf : ∀ I, lflip (caList cre ann) I = flipAll ([p] ++ [r]) I)
    (hf' : ∀ I, lflip (ladj (caList cre ann)) I = flipAll ([p] ++ [r]) I)
    (hsign : ∀ I, ReachedG p g r I → lsign (caList cre ann) I = -psign (par idx I)) (θ : ℝ) {E : Circuit}
    (hE : qubitExcitation θ [p] [r] [g] (-1) false = .ok E) :
    IsExp ((θ : ℂ) • kappa false cre ann) (Circuit.op (stairC p idx ++ E ++ (stairC p idx).adjoint)) := by
  have hnd : ([p] ++ [r] : List ℕ).Nodup := by simp [hpr]
  have hok : ExcOk p [] r [] := ⟨hnd⟩
  obtain ⟨E', hE', _, hEop⟩ := qubitExcitation_ok hok (gs := [g]) (by simp [hgp, hgr]) θ (-1) false
  rw [hE] at hE'
  cases hE'
  have hEop' : ∀ ψ I, E.op ψ I = if ReachedG p g r I ∨ ReachedG p g r (flipAll ([p] ++ [r]) I) then
      (Real.cos ((-1 : ℝ) * θ) : ℂ) * ψ I + (if I.testBit p then (Real.sin ((-1 : ℝ) * θ) : ℂ)
        else -(Real.sin ((-1 : ℝ) * θ) : ℂ)) * ψ (flipAll ([p] ++ [r]) I) else ψ I := by
    intro ψ I
    rw [hEop]
    have : ((exSign [r].length (-1) false : ℤ) : ℝ) = -1 := by rw [exSign_fermion]; simp
    rw [this]
    exact if_congr (exc_gsd hpr hgp hgr I) rfl rfl
  have hFb : ∀ I x, (flipAll ([p] ++ [r]) I).testBit x = xor (I.testBit x) (decide (x = p ∨ x = r)) := by
    intro I x; rw [testBit_flipAll hnd]; simp
  have := compact_finish (T := fermiString cre ann) (T' := fermiString ann.reverse cre.reverse) (V := ReachedG p g r)
    (P := fun I => ReachedG p g r I ∨ ReachedG p g r (flipAll ([p] ++ [r]) I))
    (s := lsign (caList cre ann)) (χ := fun I => psign (par idx I)) (F := flipAll ([p] ++ [r])) (c0 := p) (ε := 1) (S := -1)
    (U := Circuit.op (stairC p idx ++ E ++ (stairC p idx).adjoint)) (Or.inl rfl) (Or.inr rfl) (flipAll_flipAll hnd) (lsign_sq _) (by
      intro I
      rw [par_congr]
      intro x hx
      have h1 : x ≠ p := fun e => hn p (by simp) (e ▸ hx)
      have h2 : x ≠ r := fun e => hn r (by simp) (e ▸ hx)
      rw [hFb]; simp [h1, h2]) (by
      intro ψ I
      rw [fermiString_eq, ladders_apply, hf]; exact if_congr (hv I) rfl rfl) (by
      intro ψ I
      obtain ⟨a1, a2, a3⟩ := l_adj (caList cre ann) I
      rw [hf'] at a1 a2
      rw [fermiString_eq, ← ladj_caList, ladders_apply, hf', a1, a2]; exact if_congr (hv _) rfl rfl) (fun I => Iff.rfl) (fun I h => h.1) (by
      intro I h
      have := h.1; rw [hFb] at this; simpa using this) (by
      intro I h; rw [hsign I h]; push_cast; ring) θ (by
      intro ψ I
      rw [Circuit.op_append, Circuit.op_append]
      exact stair_conj hidx (D := [p, r, g]) hn hnd (by intro x hx; simp only [List.mem_append, List.mem_singleton, List.mem_cons] at hx ⊢; tauto)
        (by simp) (P := fun I => ReachedG p g r I ∨ ReachedG p g r (flipAll ([p] ++ [r]) I)) (by
          intro I J hIJ
          unfold ReachedG
          simp only [hFb, hIJ p (by simp), hIJ r (by simp), hIJ g (by simp)]) hEop' ψ I)
  simpa [kappa] using this

theorem lflip4 {a b c d p g r : ℕ} (h : ([a, b, c, d] : List ℕ).Perm [g, g, p, r]) (hpr : p ≠ r) (hgp : g ≠ p) (hgr : g ≠ r)
    (w x y z : Bool) (I : ℕ) : lflip [(w, a), (x, b), (y, c), (z, d)] I = flipAll ([p] ++ [r]) I := by
  have hcomm : ∀ l l' : List ℕ, l.Perm l' → ∀ I, l.foldl flipBit I = l'.foldl flipBit I := by
    intro l l' hp
    induction hp with
    | nil => intro I; rfl
    | cons q _ ih => intro I; exact ih _
    | swap q q' l => intro I; simp only [List.foldl_cons]; rw [flipBit_comm]
    | trans _ _ i1 i2 => intro I; rw [i1, i2]
  have := hcomm _ _ h I
  simp only [List.foldl_cons, List.foldl_nil, flipBit_flipBit] at this
  simp only [lflip, this, List.singleton_append, flipAll_cons, flipAll_nil]
  rw [flipBit_comm]

theorem fprod_pair {p r : ℕ} (hpr : p ≠ r) {I : ℕ} (hp : I.testBit p = true) (hr : I.testBit r = false) :
    fprod [p, r] I = psign (par (signIdx [p] [r]) I) * (if p < r then -1 else 1) := by
  have := fprod_split [p] [r] I
  rw [List.singleton_append] at this
  rw [this]
  congr 1
  rw [List.prod_toFinset _ (by simp [hpr])]
  simp [hp, hr]

theorem signIdx_pair_not_mem {p g r : ℕ} (h : g < p ↔ g < r) : g ∉ signIdx [p] [r] := by
  intro hg
  have := (List.mem_filter.1 (List.mem_reverse.1 hg)).2
  unfold signColumn at this
  split_ifs at this
  by_cases h1 : g < p
  · simp [h1, h.1 h1] at this
  · have h2 : ¬ g < r := fun e => h1 (h.2 e)
    simp [h1, h2] at this

/-- signs of the three kinds of strings with a shared index -/
theorem gsd_signs {p g r : ℕ} (hpr : p ≠ r) (hgp : g ≠ p) (hgr : g ≠ r) {I : ℕ} (h : ReachedG p g r I) :
    lsign (caList [g, p] [g, r]) I = -psign (par (signIdx [p] [r]) I) ∧
    lsign (caList [p, g] [r, g]) I = -psign (par (signIdx [p] [r]) I) ∧
    ((p < g ↔ g < r) → lsign (caList [p, g] [g, r]) I = -psign (par (signIdx [p, g] [g, r]) I)) := by
  obtain ⟨hp, hg, hr⟩ := h
  have hgg := fsign_sq I g
  have hpar := fprod_pair hpr hp hr
  have o1 : g < p ∨ p < g := by omega
  have o2 : g < r ∨ r < g := by omega
  have o3 : p < r ∨ r < p := by omega
  unfold fprod at hpar
  simp only [List.map_cons, List.map_nil, List.prod_cons, List.prod_nil, mul_one] at hpar
  refine ⟨?_, ?_, ?_⟩
  · rw [lsign_eq, caList_snd]
    have e : fprod ([g, p] ++ [g, r]) I = psign (par (signIdx [p] [r]) I) * (if p < r then -1 else 1) := by
      rw [← hpar]; simp only [fprod, List.cons_append, List.nil_append, List.map_cons, List.map_nil, List.prod_cons, List.prod_nil, mul_one]; linear_combination (fsign I p * fsign I r) * hgg
    rw [e]
    rcases o1 with a | a <;> rcases o2 with b | b <;> rcases o3 with c | c <;>
      simp [asc, a, b, c, Nat.not_lt_of_lt a, Nat.not_lt_of_lt b, Nat.not_lt_of_lt c, pow_succ]
  · rw [lsign_eq, caList_snd]
    have e : fprod ([p, g] ++ [r, g]) I = psign (par (signIdx [p] [r]) I) * (if p < r then -1 else 1) := by
      rw [← hpar]; simp only [fprod, List.cons_append, List.nil_append, List.map_cons, List.map_nil, List.prod_cons, List.prod_nil, mul_one]; linear_combination (fsign I p * fsign I r) * hgg
    rw [e]
    rcases o1 with a | a <;> rcases o2 with b | b <;> rcases o3 with c | c <;>
      simp [asc, a, b, c, Nat.not_lt_of_lt a, Nat.not_lt_of_lt b, Nat.not_lt_of_lt c, pow_succ]
  · intro hb
    rw [lsign_eq, caList_snd, fprod_split]
    have e : ([p, g] ++ [g, r]).toFinset = [p, g, r].toFinset := by ext x; simp
    rw [e, List.prod_toFinset _ (by simp [hpr, hgp.symm, hgr])]
    simp only [List.map_cons, List.map_nil, List.prod_cons, List.prod_nil, hp, hg, hr, if_true, Bool.false_eq_true, if_false, mul_one]
    rcases o1 with a | a
    · have b : r < g := by
        rcases o2 with b | b
        · exact absurd (hb.2 b) (by omega)
        · exact b
      have c : r < p := by omega
      simp [asc, a, b, c, Nat.not_lt_of_lt a, Nat.not_lt_of_lt b, Nat.not_lt_of_lt c]
    · have b : g < r := hb.1 a
      have c : p < r := by omega
      simp [asc, a, b, c, Nat.not_lt_of_lt a, Nat.not_lt_of_lt b, Nat.not_lt_of_lt c, pow_succ]

theorem gsd_valid {p g r : ℕ} (hpr : p ≠ r) (hgp : g ≠ p) (hgr : g ≠ r) (I : ℕ) :
    (lvalid (caList [g, p] [g, r]) I = true ↔ ReachedG p g r I) ∧ (lvalid (caList [p, g] [r, g]) I = true ↔ ReachedG p g r I) ∧
    (lvalid (caList [p, g] [g, r]) I = true ↔ ReachedG p g r I) ∧ (lvalid (caList [g, p] [r, g]) I = true ↔ ReachedG p g r I) := by
  have h1 := hpr.symm
  have h2 := hgp.symm
  have h3 := hgr.symm
  simp only [caList, ReachedG, List.map_cons, List.map_nil, List.cons_append, List.nil_append, lvalid, testBit_flipBit, hpr, hgp, hgr, h1, h2, h3,
    if_true, if_false, Bool.and_true, Bool.and_eq_true, decide_eq_true_eq]
  cases I.testBit p <;> cases I.testBit g <;> cases I.testBit r <;> simp

/-- "strictly between" -/
def Between (g p r : ℕ) : Prop := (p < g ∧ g < r) ∨ (r < g ∧ g < p)

/-- Generalised fermionic doubles with one shared index `g`: `g† p† g r` and `p† g† r g` when `g` is not between `p`
and `r`, and `p† g† g r` when it is.  (These are all the index lists sorted in the same direction except
`g† p† r g`.)  The circuit is exactly `exp(θ (t - t†))`. -/
theorem C61_gsd (θ : ℝ) {p g r : ℕ} (hpr : p ≠ r) (hgp : g ≠ p) (hgr : g ≠ r) (cre ann : List ℕ)
    (h : (¬ Between g p r ∧ ((cre = [g, p] ∧ ann = [g, r]) ∨ (cre = [p, g] ∧ ann = [r, g]))) ∨ (Between g p r ∧ cre = [p, g] ∧ ann = [g, r])) :
    ∃ C, compactExcitationCircuit θ cre ann false = .ok C ∧ (∀ x ∈ C, ApiGate x) ∧ (∀ n, p < n → g < n → r < n → C.Fits n) ∧
      IsExp ((θ : ℂ) • kappa false cre ann) C.op := by
  have hnd : ([p] ++ [r] : List ℕ).Nodup := by simp [hpr]
  have hok : ExcOk p [] r [] := ⟨hnd⟩
  obtain ⟨E, hE, hEon, _⟩ := qubitExcitation_ok hok (gs := [g]) (by simp [hgp, hgr]) θ (-1) false
  have h1 := hpr.symm
  have h2 := hgp.symm
  have h3 := hgr.symm
  have fin : ∀ idx : List ℕ, idx.Nodup → (∀ x ∈ [p, r, g], x ∉ idx) → (∀ n, p < n → g < n → r < n → ∀ x ∈ idx, x < n) →
      (∀ x ∈ stairC p idx ++ E ++ (stairC p idx).adjoint, ApiGate x) ∧
      (∀ n, p < n → g < n → r < n → Circuit.Fits n (stairC p idx ++ E ++ (stairC p idx).adjoint)) := by
    intro idx hidx hn hlt
    have hSon := stairC_on hidx (hn p (by simp))
    refine ⟨?_, ?_⟩
    · intro x hx
      rcases List.mem_append.1 hx with hx | hx
      · rcases List.mem_append.1 hx with hx | hx
        exacts [(hSon x hx).1, (hEon x hx).1]
      · exact (hSon.adjoint x hx).1
    · intro n a b c x hx
      have hs1 : ∀ y ∈ p :: idx, y < n := by
        intro y hy
        rcases List.mem_cons.1 hy with rfl | hy
        exacts [a, hlt n a b c y hy]
      have hs2 : ∀ y ∈ [p] ++ [r] ++ [g], y < n := by simp [a, b, c]
      rcases List.mem_append.1 hx with hx | hx
      · rcases List.mem_append.1 hx with hx | hx
        · exact ⟨hs1 _ (hSon x hx).2.1, hs1 _ (hSon x hx).2.2⟩
        · exact ⟨hs2 _ (hEon x hx).2.1, hs2 _ (hEon x hx).2.2⟩
      · exact ⟨hs1 _ (hSon.adjoint x hx).2.1, hs1 _ (hSon.adjoint x hx).2.2⟩
  rcases h with ⟨hb, h⟩ | ⟨hb, rfl, rfl⟩
  · have hgi : g ∉ signIdx [p] [r] := by
      apply signIdx_pair_not_mem
      unfold Between at hb
      omega
    have hn : ∀ x ∈ [p, r, g], x ∉ signIdx [p] [r] := by
      intro x hx
      simp only [List.mem_cons, List.not_mem_nil, or_false] at hx
      rcases hx with rfl | rfl | rfl
      exacts [signIdx_not_mem (by simp), signIdx_not_mem (by simp), hgi]
    obtain ⟨fa, ff⟩ := fin _ (signIdx_nodup [p] [r]) hn (fun n a b c x hx => signIdx_lt (by omega) (by simp [a, c]) x hx)
    rcases h with ⟨rfl, rfl⟩ | ⟨rfl, rfl⟩
    · refine ⟨_, ?_, fa, ff, gsd_core hpr hgp hgr (signIdx_nodup [p] [r]) hn (fun I => (gsd_valid hpr hgp hgr I).1) (fun I => ?_) (fun I => ?_)
        (fun I hI => (gsd_signs hpr hgp hgr hI).1) θ hE⟩
      · unfold compactExcitationCircuit
        have f1 : [g, p].filter (· ∉ [g, r]) = [p] := by simp [h2, hpr]
        have f2 : [g, r].filter (· ∉ [g, p]) = [r] := by simp [h3, h1]
        have f3 : ([g, p].filter (· ∈ [g, r])).dedup = [g] := by simp [h2, hpr]
        have f4 : gsdDuplicate [g, p] [g, r] g = .ok [0, 0] := by
          simp [gsdDuplicate, List.range_succ, pyIndex, h2, h3, except_ok_bind, pure, Except.pure]
        rw [if_neg (by simp)]
        simp only [f1, f2, f3, f4, List.length_singleton, gt_iff_lt, lt_irrefl, if_false, except_ok_bind, pure, Except.pure, true_or,
          decide_true, if_true, Bool.false_eq_true]
        rw [fermionSign_ok, except_ok_bind, hE, except_ok_bind]
        simp [addCircuit_eq]
      · exact lflip4 (by simpa using (List.Perm.swap g p [r]).cons g) hpr hgp hgr _ _ _ _ I
      · rw [ladj_caList]
        refine lflip4 (p := p) (g := g) (r := r) ?_ hpr hgp hgr _ _ _ _ I
        exact (List.perm_iff_count.2 (by intro x; simp [List.count_cons]; omega))
    · refine ⟨_, ?_, fa, ff, gsd_core hpr hgp hgr (signIdx_nodup [p] [r]) hn (fun I => (gsd_valid hpr hgp hgr I).2.1) (fun I => ?_) (fun I => ?_)
        (fun I hI => (gsd_signs hpr hgp hgr hI).2.1) θ hE⟩
      · unfold compactExcitationCircuit
        have f1 : [p, g].filter (· ∉ [r, g]) = [p] := by simp [h2, hpr]
        have f2 : [r, g].filter (· ∉ [p, g]) = [r] := by simp [h3, h1]
        have f3 : ([p, g].filter (· ∈ [r, g])).dedup = [g] := by simp [h2, hpr]
        have f4 : gsdDuplicate [p, g] [r, g] g = .ok [1, 1] := by
          simp [gsdDuplicate, List.range_succ, pyIndex, h2, h3, except_ok_bind, pure, Except.pure]
        rw [if_neg (by simp)]
        simp only [f1, f2, f3, f4, List.length_singleton, gt_iff_lt, lt_irrefl, if_false, except_ok_bind, pure, Except.pure, or_true,
          decide_true, if_true, Bool.false_eq_true]
        rw [fermionSign_ok, except_ok_bind, hE, except_ok_bind]
        simp [addCircuit_eq]
      · exact lflip4 (List.perm_iff_count.2 (by intro x; simp [List.count_cons]; omega)) hpr hgp hgr _ _ _ _ I
      · rw [ladj_caList]
        refine lflip4 (p := p) (g := g) (r := r) ?_ hpr hgp hgr _ _ _ _ I
        exact (List.perm_iff_count.2 (by intro x; simp [List.count_cons]; omega))
  · have hn : ∀ x ∈ [p, r, g], x ∉ signIdx [p, g] [g, r] := by
      intro x hx
      refine signIdx_not_mem ?_
      simp only [List.mem_cons, List.not_mem_nil, or_false] at hx
      simp only [List.cons_append, List.nil_append, List.mem_cons, List.not_mem_nil, or_false]
      tauto
    obtain ⟨fa, ff⟩ := fin _ (signIdx_nodup [p, g] [g, r]) hn (fun n a b c x hx => signIdx_lt (by omega) (by simp [a, b, c]) x hx)
    have hb' : p < g ↔ g < r := by unfold Between at hb; omega
    refine ⟨_, ?_, fa, ff, gsd_core hpr hgp hgr (signIdx_nodup [p, g] [g, r]) hn (fun I => (gsd_valid hpr hgp hgr I).2.2.1) (fun I => ?_) (fun I => ?_)
        (fun I hI => (gsd_signs hpr hgp hgr hI).2.2 hb') θ hE⟩
    · unfold compactExcitationCircuit
      have f1 : [p, g].filter (· ∉ [g, r]) = [p] := by simp [h2, hpr]
      have f2 : [g, r].filter (· ∉ [p, g]) = [r] := by simp [h3, h1]
      have f3 : ([p, g].filter (· ∈ [g, r])).dedup = [g] := by simp [h2, hpr]
      have f4 : gsdDuplicate [p, g] [g, r] g = .ok [0, 1] := by
        simp [gsdDuplicate, List.range_succ, pyIndex, h2, h3, except_ok_bind, pure, Except.pure]
      have f5 : ¬ (([0, 1] : List ℕ) = [0, 0] ∨ ([0, 1] : List ℕ) = [1, 1]) := by simp
      rw [if_neg (by simp)]
      simp only [f1, f2, f3, f4, f5, List.length_singleton, gt_iff_lt, lt_irrefl, if_false, except_ok_bind, pure, Except.pure,
        decide_false, Bool.false_eq_true]
      rw [fermionSign_ok, except_ok_bind, hE, except_ok_bind]
      simp [addCircuit_eq]
    · exact lflip4 (List.perm_iff_count.2 (by intro x; simp [List.count_cons]; omega)) hpr hgp hgr _ _ _ _ I
    · rw [ladj_caList]
      refine lflip4 (p := p) (g := g) (r := r) ?_ hpr hgp hgr _ _ _ _ I
      exact (List.perm_iff_count.2 (by intro x; simp [List.count_cons]; omega))

end QF
