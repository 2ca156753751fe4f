import Verif.Lemmas.Simplify

/-! `Circuit::simplify` cannot fail on circuits without `control_gate` gates. -/
namespace QF

theorem Sem.ctrlTo1_ok {g : Gate} (s : Sem g) (h : g.target ≠ g.control) (hA : g.type ≠ .A) (hS : g.type ≠ .SWAP)
    (hU : g.type ≠ .Undefined) : ∃ x, ctrlTo1 g.type = .ok x := by
  cases s with
  | one h' => exact absurd h' h
  | A _ h' => exact absurd h' hA
  | SWAP _ h' => exact absurd h' hS
  | ctrl x _ hx hop hp => exact ⟨x, hx⟩
  | cu _ ht m hop => exact absurd ht hU

theorem ev_ok {g1 g2 : Gate} (s1 : Sem g1) (s2 : Sem g2) (u1 : g1.type ≠ .Undefined) (u2 : g2.type ≠ .Undefined) :
    ∃ r, evaluateGateInteraction g1 g2 = .ok r := by
  by_cases h0 : (g1.qubitSet.filter (· ∈ g2.qubitSet)).length = 0
  · exact ⟨_, ev_disj h0⟩
  have hd : ¬ Disj g1 g2 := by
    intro hd; apply h0
    rw [List.length_eq_zero_iff, List.filter_eq_nil_iff]
    intro a ha
    unfold Gate.qubitSet at ha ⊢
    unfold Disj at hd
    split_ifs at ha ⊢ <;> simp at ha ⊢ <;> omega
  by_cases h1 : g1.target = g1.control
  · by_cases h2 : g2.target = g2.control
    · have h : g1.target = g2.target := by unfold Disj at hd; omega
      rw [ev11 h1 h2 h]
      split_ifs <;> exact ⟨_, rfl⟩
    · have h : g1.target = g2.target ∨ g1.target = g2.control := by unfold Disj at hd; omega
      rw [ev12 h1 h2 h]
      by_cases hn : g1.type = .SWAP ∨ g2.type = .SWAP ∨ g1.type = .A ∨ g2.type = .A
      · rw [if_pos hn]; exact ⟨_, rfl⟩
      rw [if_neg hn]
      push Not at hn
      obtain ⟨x, hx⟩ := s2.ctrlTo1_ok h2 hn.2.2.2 hn.2.1 u2
      rw [hx, except_ok_bind]
      split_ifs <;> exact ⟨_, rfl⟩
  · by_cases h2 : g2.target = g2.control
    · have h : g1.target = g2.target ∨ g1.control = g2.target := by unfold Disj at hd; omega
      rw [ev21 h1 h2 h]
      by_cases hn : g1.type = .SWAP ∨ g2.type = .SWAP ∨ g1.type = .A ∨ g2.type = .A
      · rw [if_pos hn]; exact ⟨_, rfl⟩
      rw [if_neg hn]
      push Not at hn
      obtain ⟨x, hx⟩ := s1.ctrlTo1_ok h1 hn.2.2.1 hn.1 u1
      rw [hx, except_ok_bind]
      split_ifs <;> exact ⟨_, rfl⟩
    · rcases common22 h1 h2 with h | ⟨hc, h⟩ | ⟨hc, h⟩
      · exact absurd h h0
      · rw [ev22_1 h1 h2 hc]
        by_cases hn : g1.type = .SWAP ∨ g2.type = .SWAP ∨ g1.type = .A ∨ g2.type = .A
        · rw [if_pos hn]; exact ⟨_, rfl⟩
        rw [if_neg hn]
        push Not at hn
        obtain ⟨x, hx⟩ := s1.ctrlTo1_ok h1 hn.2.2.1 hn.1 u1
        obtain ⟨y, hy⟩ := s2.ctrlTo1_ok h2 hn.2.2.2 hn.2.1 u2
        rw [hx, hy, except_ok_bind, except_ok_bind, except_ok_bind, except_ok_bind]
        split_ifs <;> exact ⟨_, rfl⟩
      · rw [ev22_2 h1 h2 hc]
        by_cases hs : (isSym2 g1.type && isSym2 g2.type) = true
        · rw [if_pos hs]; exact ⟨_, rfl⟩
        rw [if_neg hs]
        by_cases hS : g1.type = .SWAP ∨ g2.type = .SWAP
        · rw [if_pos hS]; exact ⟨_, rfl⟩
        rw [if_neg hS]
        push Not at hS
        by_cases hA : g1.type = .A ∨ g2.type = .A
        · rw [if_pos hA]; split_ifs <;> exact ⟨_, rfl⟩
        rw [if_neg hA]
        push Not at hA
        obtain ⟨x, hx⟩ := s1.ctrlTo1_ok h1 hA.1 hS.1 u1
        obtain ⟨y, hy⟩ := s2.ctrlTo1_ok h2 hA.2 hS.2 u2
        rw [hx, hy, except_ok_bind, except_ok_bind, except_ok_bind, except_ok_bind]
        split_ifs <;> exact ⟨_, rfl⟩

theorem named_any {g : Gate} (h : IsNamed g) (θ : ℝ) : ∃ g', makeGate g.label g.target g.control θ = .ok g' := by
  obtain ⟨θ', h⟩ := h
  exact makeGate_ok_of_name θ (made_name (made_of_makeGate h))

theorem named_of_param {g : Gate} (h : ApiGate g) (hp : isParametrized g.type = true) : IsNamed g := by
  rcases api_class h with h | ⟨hl, _⟩ | ⟨hl, _⟩
  · exact h
  · exfalso
    unfold Gate.type at hp
    rcases hl with ⟨hl, _⟩ | ⟨hl, _⟩ <;> rw [hl] at hp <;> exact absurd hp (by decide)
  · exfalso
    unfold Gate.type at hp
    rcases hl with hl | hl <;> rw [hl] at hp <;> exact absurd hp (by decide)

theorem simpStep_ok {g1 g2 : Gate} (a1 : ApiGate g1) (a2 : ApiGate g2) (u1 : g1.type ≠ .Undefined)
    (u2 : g2.type ≠ .Undefined) : ∃ r, simpStep g1 g2 = .ok r := by
  have s1 := api_sem a1
  have s2 := api_sem a2
  obtain ⟨⟨b, k⟩, hev⟩ := ev_ok s1 s2 u1 u2
  unfold simpStep
  rw [hev, except_ok_bind]
  cases b
  · exact ⟨.stop, rfl⟩
  have hcode := ev_code hev
  simp only [if_true]
  have parm : (isParametrized g1.type = true → ∃ p, g1.parameter = some p) →
      (isParametrized g2.type = true → ∃ p, g2.parameter = some p) → g1.type = g2.type →
      isParametrized g1.type = true → ∃ r, (do
        let p ← deref g1.parameter
        let q ← deref g2.parameter
        let g ← makeGate g2.label g2.target g2.control (p + q)
        pure (.merge g) : Except Exc SimpStep) = .ok r := by
    intro p1 p2 hty hp
    obtain ⟨p, hp1⟩ := p1 hp
    obtain ⟨q, hq1⟩ := p2 (hty ▸ hp)
    obtain ⟨g, hg⟩ := named_any (named_of_param a2 (hty ▸ hp)) (p + q)
    rw [hp1, hq1]
    simp only [deref, except_ok_bind]
    rw [hg]
    exact ⟨_, rfl⟩
  cases hcode with
  | c0 => exact ⟨.next, rfl⟩
  | c1one h1 h2 ht hty =>
    simp only [Nat.one_ne_zero, if_false, if_true]
    obtain ⟨n1, n2, _, e1, p1, _⟩ := s1.of_one h1
    obtain ⟨_, _, _, e2, p2, _⟩ := s2.of_one h2
    by_cases hi : isInvolutory g1.type = true
    · rw [if_pos hi]; exact ⟨_, rfl⟩
    rw [if_neg hi]
    by_cases hp : isParametrized g1.type = true
    · rw [if_pos hp]
      exact parm p1 p2 hty hp
    rw [if_neg hp]
    by_cases hs : isSquareRoot g1.type = true
    · rw [if_pos hs, ← hty, ← h2]
      rcases sqrt_one hs n1 with hc | hc | hc | hc <;> rw [hc]
      · exact ⟨_, by simp only [squareOf, except_ok_bind]; rw [makeGate_of_made (.S _ _)]; rfl⟩
      · exact ⟨_, by simp only [squareOf, except_ok_bind]; rw [makeGate_of_made (.Z _ _)]; rfl⟩
      · exact ⟨_, by simp only [squareOf, except_ok_bind]; rw [makeGate_of_made (.X _ _)]; rfl⟩
      · exact ⟨_, by simp only [squareOf, except_ok_bind]; rw [makeGate_of_made (.X _ _)]; rfl⟩
    · rw [if_neg hs]; exact ⟨_, rfl⟩
  | c1two x h1 ht hct hty hx =>
    simp only [Nat.one_ne_zero, if_false, if_true]
    have h2 : g2.target ≠ g2.control := by rw [← ht, ← hct]; exact h1
    have hx2 : ctrlTo1 g2.type = .ok x := hty ▸ hx
    obtain ⟨n1, n2, _⟩ := QF.ctrlTo1_ok hx
    obtain ⟨_, _, _, k1⟩ := s1.of_ctrl h1 n2 n1
    obtain ⟨_, _, _, k2⟩ := s2.of_ctrl h2 (hty ▸ n2) (hty ▸ n1)
    by_cases hi : isInvolutory g1.type = true
    · rw [if_pos hi]; exact ⟨_, rfl⟩
    rw [if_neg hi]
    by_cases hp : isParametrized g1.type = true
    · rw [if_pos hp]
      exact parm (k1 x hx).2.2 (k2 x hx2).2.2 hty hp
    rw [if_neg hp]
    by_cases hs : isSquareRoot g1.type = true
    · rw [if_pos hs, ← hty]
      rcases sqrt_ctrl hs hx with ⟨hc, _⟩ | ⟨hc, _⟩ <;> rw [hc]
      · exact ⟨_, by simp only [squareOf, except_ok_bind]; rw [makeGate_of_made (.cX _ _ _ h2)]; rfl⟩
      · exact ⟨_, by simp only [squareOf, except_ok_bind]; rw [makeGate_of_made (.cX _ _ _ h2)]; rfl⟩
    · rw [if_neg hs]; exact ⟨_, rfl⟩
  | c2 h1 h2 hq hty hs =>
    simp only [show (2:ℕ) ≠ 0 by decide, show (2:ℕ) ≠ 1 by decide, if_false, if_true]
    by_cases hi : isInvolutory g1.type = true
    · rw [if_pos hi]; exact ⟨_, rfl⟩
    rw [if_neg hi]
    rcases s1.of_sym h1 hs with ⟨t1, _⟩ | ⟨t1, _⟩ | ⟨t1, p, hp1, _⟩
    · rw [t1] at hi; exact absurd (by decide) hi
    · rw [t1] at hi; exact absurd (by decide) hi
    rcases s2.of_sym h2 (hty ▸ hs) with ⟨t2, _⟩ | ⟨t2, _⟩ | ⟨t2, q, hq1, _⟩
    · rw [← hty, t1] at t2; cases t2
    · rw [← hty, t1] at t2; cases t2
    have hp : isParametrized g1.type = true := by rw [t1]; decide
    obtain ⟨r, hr⟩ := parm (fun _ => ⟨p, hp1⟩) (fun _ => ⟨q, hq1⟩) hty hp
    refine ⟨r, ?_⟩
    rw [← hr, t1]
    simp only [ctrlTo1, except_ok_bind, show isPhase1 .R = true by decide, if_true]
  | c3 h1 h2 ht hp1 hp2 =>
    simp only [show (3:ℕ) ≠ 0 by decide, show (3:ℕ) ≠ 1 by decide, show (3:ℕ) ≠ 2 by decide, if_false, if_true]
    obtain ⟨p, e1, f1⟩ := phase_param s1 h1 hp1
    obtain ⟨q, e2, f2⟩ := phase_param s2 h2 hp2
    rw [e1, e2, except_ok_bind, except_ok_bind, ← h2, makeGate_of_made (.R _ _)]
    exact ⟨_, rfl⟩
  | c4one h1 h2 ht hv =>
    simp only [show (4:ℕ) ≠ 0 by decide, show (4:ℕ) ≠ 1 by decide, show (4:ℕ) ≠ 2 by decide, show (4:ℕ) ≠ 3 by decide, if_false, if_true]
    exact ⟨_, rfl⟩
  | c4two x y h1 ht hct hx hy hv =>
    simp only [show (4:ℕ) ≠ 0 by decide, show (4:ℕ) ≠ 1 by decide, show (4:ℕ) ≠ 2 by decide, show (4:ℕ) ≠ 3 by decide, if_false, if_true]
    exact ⟨_, rfl⟩

/-- a merged gate sits on the qubits of the second gate -/
theorem merge_qubits {g1 g2 g : Gate} (h : simpStep g1 g2 = .ok (.merge g)) :
    g.target = g2.target ∧ g.control = g2.control := by
  have key : ∀ (l : String) (θ : ℝ), (do
      let g ← makeGate l g2.target g2.control θ
      pure (SimpStep.merge g) : Except Exc SimpStep) = .ok (.merge g) → g.target = g2.target ∧ g.control = g2.control := by
    intro l θ h
    rcases hmk : makeGate l g2.target g2.control θ with e | g'
    · rw [hmk] at h; cases h
    rw [hmk] at h; cases h
    exact ⟨(makeGate_spec hmk).2.1, (makeGate_spec hmk).2.2.1⟩
  have key2 : (do
        let p ← deref g1.parameter
        let q ← deref g2.parameter
        let g ← makeGate g2.label g2.target g2.control (p + q)
        pure (.merge g) : Except Exc SimpStep) = .ok (.merge g) → g.target = g2.target ∧ g.control = g2.control := by
    intro h
    rcases hq1 : g1.parameter with _ | p
    · rw [hq1] at h; cases h
    rcases hq2 : g2.parameter with _ | q
    · rw [hq1, hq2] at h; cases h
    rw [hq1, hq2] at h
    simp only [deref, except_ok_bind] at h
    exact key _ _ h
  unfold simpStep at h
  rcases hev : evaluateGateInteraction g1 g2 with e | ⟨b, k⟩
  · rw [hev] at h; cases h
  rw [hev, except_ok_bind] at h
  split_ifs at h
  · cases h
  · cases h
  · exact key2 h
  · rcases hs : squareOf g2.type with e | l
    · rw [hs] at h; cases h
    rw [hs] at h; exact key _ _ h
  · cases h
  · cases h
  · rcases hs : ctrlTo1 g1.type with e | x
    · rw [hs] at h; cases h
    rw [hs, except_ok_bind] at h
    split_ifs at h
    · exact key2 h
    · cases h
  · rcases hs : phaseGateParameter g1 with e | p
    · rw [hs] at h; cases h
    rcases hs2 : phaseGateParameter g2 with e | q
    · rw [hs, hs2] at h; cases h
    rw [hs, hs2] at h; exact key _ _ h
  · cases h
  · cases h
  · cases h

/-- the gates of a circuit on `N` qubits -/
def OnN (N : ℕ) (g : Gate) : Prop := ApiGate g ∧ g.target < N ∧ g.control < N

theorem good_onN (N : ℕ) : GoodP (OnN N) where
  sem g h := api_sem h.1
  merge g1 g2 g h1 h2 h := by
    have hq := merge_qubits h
    have := simpStep_sound (api_sem h1.1) (api_sem h2.1) h
    obtain ⟨_, θ, hθ⟩ := this
    exact ⟨.make hθ, hq.1 ▸ h2.2.1, hq.2 ▸ h2.2.2⟩

/-- gates other than `control_gate` results -/
def NoCU (g : Gate) : Prop := ApiGate g ∧ g.type ≠ .Undefined

theorem named_type {g : Gate} (h : IsNamed g) : g.type ≠ .Undefined := by
  obtain ⟨θ, h⟩ := h
  have := made_name (made_of_makeGate h)
  unfold Gate.type
  rcases this with ⟨_, h⟩ | ⟨_, h⟩
  · simp only [names1, List.mem_cons, List.not_mem_nil, or_false] at h
    rcases h with h | h | h | h | h | h | h | h | h | h | h | h <;> rw [h] <;> decide
  · simp only [names2, List.mem_cons, List.not_mem_nil, or_false] at h
    rcases h with h | h | h | h | h | h | h | h | h | h | h <;> rw [h] <;> decide

theorem good_noCU : GoodP NoCU where
  sem g h := api_sem h.1
  merge g1 g2 g h1 h2 h := by
    have := simpStep_sound (api_sem h1.1) (api_sem h2.1) h
    obtain ⟨θ, hθ⟩ := this.2
    exact ⟨.make hθ, named_type this.2⟩

theorem inner_ok {n : ℕ} {g1 : Gate} (hg1 : NoCU g1) {pos1 : ℕ} :
    ∀ (l : List ℕ) (s : Circuit × List ℕ), s.1.length = n → (∀ g ∈ s.1, NoCU g) → (∀ i ∈ l, i < n) →
    ∃ s', simpInner g1 pos1 l s = .ok s' ∧ s'.1.length = n ∧ ∀ g ∈ s'.1, NoCU g := by
  intro l
  induction l with
  | nil => intro s h1 h2 _; exact ⟨s, rfl, h1, h2⟩
  | cons k l ih =>
    intro s h1 h2 h3
    unfold simpInner
    have hl : ∀ i ∈ l, i < n := fun i hi => h3 i (by simp [hi])
    by_cases hm : k ∈ s.2
    · rw [if_pos hm]; exact ih s h1 h2 hl
    rw [if_neg hm]
    have hk : k < s.1.length := by rw [h1]; exact h3 k (by simp)
    rw [List.getElem?_eq_getElem hk]
    have hg2 : NoCU s.1[k] := h2 _ (List.getElem_mem hk)
    obtain ⟨r, hr⟩ := simpStep_ok hg1.1 hg2.1 hg1.2 hg2.2
    simp only
    rw [hr, except_ok_bind]
    cases r with
    | next => exact ih s h1 h2 hl
    | stop => exact ⟨s, rfl, h1, h2⟩
    | removeBoth => exact ⟨_, rfl, h1, h2⟩
    | merge g =>
      refine ⟨_, rfl, by rw [List.length_set]; exact h1, ?_⟩
      intro x hx
      rcases List.mem_or_eq_of_mem_set hx with h | rfl
      · exact h2 x h
      · exact good_noCU.merge g1 _ x hg1 hg2 hr

theorem outer_ok {n : ℕ} :
    ∀ (l : List ℕ) (s : Circuit × List ℕ), s.1.length = n → (∀ g ∈ s.1, NoCU g) → (∀ i ∈ l, i < n) →
    ∃ s', simpOuter n l s = .ok s' := by
  intro l
  induction l with
  | nil => intro s _ _ _; exact ⟨s, rfl⟩
  | cons k l ih =>
    intro s h1 h2 h3
    unfold simpOuter
    have hl : ∀ i ∈ l, i < n := fun i hi => h3 i (by simp [hi])
    by_cases hm : k ∈ s.2
    · rw [if_pos hm]; exact ih s h1 h2 hl
    rw [if_neg hm]
    have hk : k < s.1.length := by rw [h1]; exact h3 k (by simp)
    rw [List.getElem?_eq_getElem hk]
    obtain ⟨s', e1, e2, e3⟩ := inner_ok (pos1 := k) (h2 _ (List.getElem_mem hk)) (List.range' (k + 1) (n - (k + 1))) s h1 h2
      (fun i hi => by rw [List.mem_range'_1] at hi; have := h3 k (by simp); omega)
    simp only
    rw [e1, except_ok_bind]
    exact ih s' e2 e3 hl

theorem simplify_ok {c : Circuit} (hc : ∀ g ∈ c, NoCU g) : ∃ c', Circuit.simplify c = .ok c' := by
  unfold Circuit.simplify
  obtain ⟨s, hs⟩ := outer_ok (List.range c.length) (c, []) rfl hc (fun i hi => List.mem_range.1 hi)
  rw [hs]
  exact ⟨_, rfl⟩

end QF
