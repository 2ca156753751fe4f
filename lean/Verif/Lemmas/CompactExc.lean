import Verif.Lemmas.CompactRy
import Verif.Lemmas.ApplyCircuit
import Verif.Lemmas.Fermion

/-! The operator of `qubit_excitation`. -/
namespace QF

/-- `I` with all bits of `l` flipped -/
def flipAll (l : List ℕ) (I : ℕ) : ℕ := l.foldr (fun p J => flipBit J p) I

@[simp] theorem flipAll_nil (I : ℕ) : flipAll [] I = I := rfl
@[simp] theorem flipAll_cons (p : ℕ) (l : List ℕ) (I : ℕ) : flipAll (p :: l) I = flipBit (flipAll l I) p := rfl

theorem testBit_flipAll {l : List ℕ} (h : l.Nodup) (I q : ℕ) : (flipAll l I).testBit q = xor (I.testBit q) (decide (q ∈ l)) := by
  induction l generalizing q with
  | nil => simp
  | cons p l ih =>
    rw [List.nodup_cons] at h
    rw [flipAll_cons, testBit_flipBit, ih h.2, ih h.2]
    by_cases e : q = p
    · subst e; simp [h.1]
    · simp [e]

theorem flipAll_flipAll {l : List ℕ} (h : l.Nodup) (I : ℕ) : flipAll l (flipAll l I) = I := by
  apply eq_of_bits; intro q; rw [testBit_flipAll h, testBit_flipAll h]; simp

theorem flipAll_congr {l l' : List ℕ} (h : l.Nodup) (h' : l'.Nodup) (hm : ∀ q, q ∈ l ↔ q ∈ l') (I : ℕ) : flipAll l I = flipAll l' I := by
  apply eq_of_bits; intro q; rw [testBit_flipAll h, testBit_flipAll h', decide_eq_decide.2 (hm q)]

/-- the basis state after flipping `ts` under control of `c` -/
def fan (c : ℕ) (ts : List ℕ) (I : ℕ) : ℕ := if I.testBit c then flipAll ts I else I

theorem testBit_fan {c : ℕ} {ts : List ℕ} (h : ts.Nodup) (I q : ℕ) : (fan c ts I).testBit q = xor (I.testBit q) (I.testBit c && decide (q ∈ ts)) := by
  unfold fan
  split_ifs with hc
  · rw [testBit_flipAll h, hc]; simp
  · simp [hc]

theorem fan_fan {c : ℕ} {ts : List ℕ} (h : ts.Nodup) (hc : c ∉ ts) (I : ℕ) : fan c ts (fan c ts I) = I := by
  apply eq_of_bits; intro q
  rw [testBit_fan h, testBit_fan h, testBit_fan h]
  simp [hc]

theorem cnot_apply {t c : ℕ} (h : t ≠ c) (φ : St) (I : ℕ) : (gCNOT t c).op φ I = φ (fan c [t] I) := by
  have := cxy_apply h true φ I
  rw [Ins.gate] at this
  rw [this, fan]; split_ifs <;> simp_all

theorem fan_apply {c : ℕ} : ∀ (ts : List ℕ), ts.Nodup → c ∉ ts → ∀ (ψ : St) (I : ℕ),
    Circuit.op (ts.map (fun t => gCNOT t c)) ψ I = ψ (fan c ts I)
  | [], _, _, ψ, I => by simp [fan]
  | t :: ts, hn, hc, ψ, I => by
    rw [List.nodup_cons] at hn
    rw [List.mem_cons, not_or] at hc
    rw [List.map_cons, Circuit.op_cons, Module.End.mul_apply, fan_apply ts hn.2 hc.2, cnot_apply (Ne.symm hc.1)]
    congr 1
    have hn' : (t :: ts).Nodup := List.nodup_cons.2 hn
    apply eq_of_bits; intro q
    rw [testBit_fan (by simp), testBit_fan hn.2, testBit_fan hn.2, testBit_fan hn']
    by_cases e : q = t
    · subst e; simp [hc.2, hn.1]
    · simp [hc.2, e]

/-- the entangling prefix of `qubit_excitation` -/
def prefixW (c0 : ℕ) (cs : List ℕ) (a0 : ℕ) (as : List ℕ) : Circuit :=
  cs.map (fun t => gCNOT t c0) ++ as.map (fun t => gCNOT t a0) ++ [gCNOT a0 c0]

/-- the basis state `I` is mapped to by the inverse of the prefix -/
def preL (c0 : ℕ) (cs : List ℕ) (a0 : ℕ) (as : List ℕ) (I : ℕ) : ℕ := fan c0 [a0] (fan a0 as (fan c0 cs I))
def preK (c0 : ℕ) (cs : List ℕ) (a0 : ℕ) (as : List ℕ) (I : ℕ) : ℕ := fan c0 cs (fan a0 as (fan c0 [a0] I))

section
variable {c0 : ℕ} {cs : List ℕ} {a0 : ℕ} {as : List ℕ}

/-- distinctness facts used throughout -/
structure ExcOk (c0 : ℕ) (cs : List ℕ) (a0 : ℕ) (as : List ℕ) : Prop where
  nd : ((c0 :: cs) ++ (a0 :: as)).Nodup

theorem ExcOk.facts (h : ExcOk c0 cs a0 as) : cs.Nodup ∧ as.Nodup ∧ c0 ∉ cs ∧ a0 ∉ as ∧ c0 ≠ a0 ∧ c0 ∉ as ∧ a0 ∉ cs ∧ (∀ x ∈ cs, x ∉ as) := by
  have := h.nd
  simp only [List.nodup_append, List.nodup_cons, List.mem_cons] at this
  obtain ⟨⟨h1, h2⟩, ⟨h3, h4⟩, h5⟩ := this
  refine ⟨h2, h4, h1, h3, h5 c0 (Or.inl rfl) a0 (Or.inl rfl), ?_, ?_, ?_⟩
  · intro hx; exact h5 c0 (Or.inl rfl) c0 (Or.inr hx) rfl
  · intro hx; exact h5 a0 (Or.inr hx) a0 (Or.inl rfl) rfl
  · intro x hx hx'; exact h5 x (Or.inr hx) x (Or.inr hx') rfl

theorem testBit_preL (h : ExcOk c0 cs a0 as) (I q : ℕ) : (preL c0 cs a0 as I).testBit q =
    if q = a0 then xor (I.testBit a0) (I.testBit c0) else if q ∈ cs then xor (I.testBit q) (I.testBit c0)
    else if q ∈ as then xor (I.testBit q) (I.testBit a0) else I.testBit q := by
  obtain ⟨h1, h2, h3, h4, h5, h6, h7, h8⟩ := h.facts
  unfold preL
  simp only [testBit_fan h1, testBit_fan h2, testBit_fan (List.nodup_singleton a0), h3, h4, h6, h7]
  by_cases e : q = a0
  · subst e; simp [h4, h7]
  · by_cases e1 : q ∈ cs
    · simp [e, e1, h8 q e1]
    · by_cases e2 : q ∈ as <;> simp [e, e1, e2]

theorem preK_preL (h : ExcOk c0 cs a0 as) (I : ℕ) : preK c0 cs a0 as (preL c0 cs a0 as I) = I := by
  obtain ⟨h1, h2, h3, h4, h5, h6, h7, h8⟩ := h.facts
  unfold preK preL
  rw [fan_fan (List.nodup_singleton a0) (by simpa using h5), fan_fan h2 h4, fan_fan h1 h3]

theorem preK_flip (h : ExcOk c0 cs a0 as) (I : ℕ) :
    preK c0 cs a0 as (flipBit (preL c0 cs a0 as I) c0) = flipAll ((c0 :: cs) ++ (a0 :: as)) I := by
  obtain ⟨h1, h2, h3, h4, h5, h6, h7, h8⟩ := h.facts
  apply eq_of_bits; intro q
  rw [testBit_flipAll h.nd]
  unfold preK
  simp only [testBit_fan h1, testBit_fan h2, testBit_fan (List.nodup_singleton a0), testBit_flipBit, testBit_preL h,
    h5, h3, h6, h4, h7, if_false, if_true]
  have h5' := h5.symm
  by_cases e : q = c0
  · subst e; simp [h3, h5, h6]
  · by_cases e0 : q = a0
    · subst e0; simp [h4, h7, h5']
    · by_cases e1 : q ∈ cs
      · have e2 := h8 q e1
        simp [e, e0, e1, e2, h5', h5]
      · by_cases e2 : q ∈ as
        · simp [e, e0, e1, e2, h5']
        · simp [e, e0, e1, e2]

theorem prefixW_apply (h : ExcOk c0 cs a0 as) (ψ : St) (I : ℕ) : Circuit.op (prefixW c0 cs a0 as) ψ I = ψ (preK c0 cs a0 as I) := by
  obtain ⟨h1, h2, h3, h4, h5, h6, h7, h8⟩ := h.facts
  unfold prefixW preK
  rw [Circuit.op_append, Circuit.op_append, Module.End.mul_apply, Module.End.mul_apply]
  simp only [Circuit.op_cons, Circuit.op_nil, one_mul]
  rw [cnot_apply (Ne.symm h5), fan_apply as h2 h4, fan_apply cs h1 h3]

theorem prefixW_on (h : ExcOk c0 cs a0 as) : (prefixW c0 cs a0 as).On ((c0 :: cs) ++ (a0 :: as)) := by
  obtain ⟨h1, h2, h3, h4, h5, h6, h7, h8⟩ := h.facts
  unfold prefixW
  refine Circuit.On.append (Circuit.On.append ?_ ?_) ?_
  · intro g hg
    obtain ⟨x, hx, rfl⟩ := List.mem_map.1 hg
    have hne : x ≠ c0 := fun e => h3 (e ▸ hx)
    exact ⟨.make (make_CNOT hne 0), by simp [gCNOT, hx], by simp [gCNOT]⟩
  · intro g hg
    obtain ⟨x, hx, rfl⟩ := List.mem_map.1 hg
    have hne : x ≠ a0 := fun e => h4 (e ▸ hx)
    exact ⟨.make (make_CNOT hne 0), by simp [gCNOT, hx], by simp [gCNOT]⟩
  · exact on_CNOT (Ne.symm h5) (by simp) (by simp)

theorem prefixW_adjoint (h : ExcOk c0 cs a0 as) (φ : St) (I : ℕ) :
    Circuit.op (prefixW c0 cs a0 as).adjoint φ I = φ (preL c0 cs a0 as I) := by
  have hinv := (circuit_adjoint_op (fun g hg => (prefixW_on h g hg).1)).2
  have e := prefixW_apply h (Circuit.op (prefixW c0 cs a0 as).adjoint φ) (preL c0 cs a0 as I)
  rw [preK_preL h, ← Module.End.mul_apply, hinv] at e
  exact e.symm

theorem qubitExcitation_ok (h : ExcOk c0 cs a0 as) {gs : List ℕ} (hg : ∀ x ∈ gs, x ∉ (c0 :: cs) ++ (a0 :: as)) (θ : ℝ) (gsign : ℤ) (q : Bool) :
    ∃ C, qubitExcitation θ (c0 :: cs) (a0 :: as) gs gsign q = .ok C ∧ C.On ((c0 :: cs) ++ (a0 :: as) ++ gs) ∧
      ∀ (ψ : St) (I : ℕ), C.op ψ I =
        if ∀ j (hj : j < ((a0 :: as) ++ cs.reverse ++ gs).length),
            (preL c0 cs a0 as I).testBit ((a0 :: as) ++ cs.reverse ++ gs)[j] = ctlPol (gs ≠ []) j then
          (Real.cos (exSign (a0 :: as).length gsign q * θ) : ℂ) * ψ I +
            (if I.testBit c0 then (Real.sin (exSign (a0 :: as).length gsign q * θ) : ℂ) else -(Real.sin (exSign (a0 :: as).length gsign q * θ) : ℂ)) *
              ψ (flipAll ((c0 :: cs) ++ (a0 :: as)) I)
        else ψ I := by
  obtain ⟨h1, h2, h3, h4, h5, h6, h7, h8⟩ := h.facts
  have ht : c0 ∉ (a0 :: as) ++ cs.reverse ++ gs := by
    intro hx
    rcases List.mem_append.1 hx with hx | hx
    · rcases List.mem_append.1 hx with hx | hx
      · rcases List.mem_cons.1 hx with hx | hx
        exacts [h5 hx, h6 hx]
      · exact h3 (List.mem_reverse.1 hx)
    · exact hg c0 hx (by simp)
  obtain ⟨R, hR, hon, hop⟩ := multiRy_ok θ (cc := cs) (ca := a0 :: as) (gs := gs) ht (by simp) gsign q
  refine ⟨prefixW c0 cs a0 as ++ R ++ (prefixW c0 cs a0 as).adjoint, ?_, ?_, ?_⟩
  · unfold qubitExcitation
    have e1 : (c0 :: cs).tail.foldlM (fun c t => do
        let x ← pyIndex (c0 :: cs) 0
        let g ← pyGate2 "CNOT" t x
        pure (Circuit.addGate c g)) ([] : Circuit) = (.ok ([] ++ cs.flatMap fun t => [gCNOT t c0]) : Except Exc Circuit) := by
      refine foldlM_addGates _ _ _ ?_ _
      intro x hx c
      have hne : x ≠ c0 := fun e => h3 (e ▸ hx)
      simp [pyIndex, py_CNOT hne, except_ok_bind, Circuit.addGate, pure, Except.pure]
    have e2 : ∀ d : Circuit, (a0 :: as).tail.foldlM (fun c t => do
        let x ← pyIndex (a0 :: as) 0
        let g ← pyGate2 "CNOT" t x
        pure (Circuit.addGate c g)) d = (.ok (d ++ as.flatMap fun t => [gCNOT t a0]) : Except Exc Circuit) := by
      refine foldlM_addGates _ _ _ ?_
      intro x hx c
      have hne : x ≠ a0 := fun e => h4 (e ▸ hx)
      simp [pyIndex, py_CNOT hne, except_ok_bind, Circuit.addGate, pure, Except.pure]
    rw [e1, except_ok_bind, e2, except_ok_bind]
    simp only [pyIndex, List.getElem?_cons_zero, except_ok_bind, List.tail_cons]
    rw [py_CNOT (Ne.symm h5), except_ok_bind, hR, except_ok_bind]
    simp only [pure, Except.pure, addCircuit_eq, prefixW, Circuit.addGate, List.nil_append, List.flatMap_singleton', ← List.map_eq_flatMap]
  · have hsub : c0 :: ((a0 :: as) ++ cs.reverse ++ gs) ⊆ (c0 :: cs) ++ (a0 :: as) ++ gs := by
      intro x hx
      simp only [List.mem_cons, List.mem_append, List.mem_reverse] at hx ⊢
      tauto
    have hW := (prefixW_on h).mono (s' := (c0 :: cs) ++ (a0 :: as) ++ gs) (List.subset_append_left _ _)
    exact (hW.append (hon.mono hsub)).append hW.adjoint
  · intro ψ I
    rw [Circuit.op_append, Circuit.op_append, Module.End.mul_apply, Module.End.mul_apply, prefixW_adjoint h, hop,
      prefixW_apply h, prefixW_apply h, preK_preL h, preK_flip h]
    have hb : (preL c0 cs a0 as I).testBit c0 = I.testBit c0 := by rw [testBit_preL h]; simp [h5, h3, h6]
    rw [hb]
end

end QF
