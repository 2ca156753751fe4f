import Verif.Props.Circuit
import Verif.Lemmas.Expo
import Verif.Lemmas.CompactRy
import Verif.Model.Compact
import Verif.Spec.Resources

/-!
C102: the numbers of CNOT gates of the circuits the package builds.
-/
namespace QF
namespace Cost

theorem nil : Circuit.getNumCnots [] = 0 := rfl

theorem append (c d : Circuit) : Circuit.getNumCnots (c ++ d) = c.getNumCnots + d.getNumCnots := by
  rw [← addCircuit_eq, C16_additive]

theorem addGate (c : Circuit) (g : Gate) : (c.addGate g).getNumCnots = c.getNumCnots + Circuit.getNumCnots [g] := by
  rw [Circuit.addGate, append]

theorem one_of {g : Gate} (h : isCnotLabel g.label = true) : Circuit.getNumCnots [g] = 1 := by
  have : isTripleLabel g.label = false := by
    revert h
    simp only [isCnotLabel, isTripleLabel, decide_eq_true_eq, decide_eq_false_iff_not]
    rintro (h | h | h | h) <;> rw [h] <;> decide
  rw [C16_count]; simp [h, this]

theorem zero_of {g : Gate} (h : isCnotLabel g.label = false) (h' : isTripleLabel g.label = false) : Circuit.getNumCnots [g] = 0 := by
  rw [C16_count]; simp [h, h']

/-- a gate from the python API has the label asked for -/
theorem make_label {ty : String} {t c : ℕ} {x : ℝ} {g : Gate} (h : makeGate ty t c x = .ok g) : g.label = ty ∧ ApiGate g :=
  ⟨by cases made_of_makeGate h <;> rfl, .make h⟩

theorem py2_label {ty : String} {t c : ℕ} {g : Gate} (h : pyGate2 ty t c = .ok g) : g.label = ty ∧ ApiGate g := by
  unfold pyGate2 at h
  by_cases h1 : ty ∈ ["SWAP", "cV", "CNOT", "cX", "aCNOT", "acX", "cY", "cZ"]
  · rw [if_pos h1] at h; exact make_label h
  · rw [if_neg h1] at h
    by_cases h2 : t = c ∧ ty ∈ ["X", "Y", "Z", "H", "V", "S", "T", "I"]
    · rw [if_pos h2] at h; exact make_label h
    · rw [if_neg h2] at h; cases h

theorem py3_label {ty : String} {t c : ℕ} {z : ℂ} {g : Gate} (h : pyGate3 ty t c z = .ok g) : g.label = ty ∧ ApiGate g := by
  unfold pyGate3 at h
  by_cases h1 : z.im ≠ 0
  · rw [if_pos h1] at h; cases h
  · rw [if_neg h1] at h; exact make_label h

theorem py3Opt_label {ty : String} {t c : Option ℕ} {z : ℂ} {g : Gate} (h : pyGate3Opt ty t c z = .ok g) : g.label = ty ∧ ApiGate g := by
  unfold pyGate3Opt at h
  split at h
  · exact py3_label h
  · cases h

theorem py2Opt_label {ty : String} {t c : Option ℕ} {g : Gate} (h : pyGate2Opt ty t c = .ok g) : g.label = ty ∧ ApiGate g := by
  unfold pyGate2Opt at h
  split at h
  · exact py2_label h
  · cases h

theorem bind_ok {α β : Type} {x : Except Exc α} {f : α → Except Exc β} {b : β} (h : (x >>= f) = .ok b) : ∃ a, x = .ok a ∧ f a = .ok b := by
  cases x with
  | error e => cases h
  | ok a => exact ⟨a, rfl, h⟩

/-- API gates only, and `k` CNOT gates -/
def Api (c : Circuit) (k : ℕ) : Prop := (∀ g ∈ c, ApiGate g) ∧ c.getNumCnots = k

theorem Api.nil : Api [] 0 := ⟨by simp, rfl⟩

theorem Api.add {c : Circuit} {k : ℕ} (h : Api c k) {g : Gate} (hg : ApiGate g) (hc : isCnotLabel g.label = false) (ht : isTripleLabel g.label = false) :
    Api (c.addGate g) k := by
  refine ⟨?_, by rw [addGate, h.2, zero_of hc ht, add_zero]⟩
  intro x hx
  rcases List.mem_append.1 hx with hx | hx
  · exact h.1 x hx
  · rw [List.mem_singleton.1 hx]; exact hg

theorem Api.cnot {c : Circuit} {k : ℕ} (h : Api c k) {g : Gate} (hg : ApiGate g) (hc : isCnotLabel g.label = true) : Api (c.addGate g) (k + 1) := by
  refine ⟨?_, by rw [addGate, h.2, one_of hc]; push_cast; rfl⟩
  intro x hx
  rcases List.mem_append.1 hx with hx | hx
  · exact h.1 x hx
  · rw [List.mem_singleton.1 hx]; exact hg

theorem Api.cat {c d : Circuit} {k l : ℕ} (h : Api c k) (g : Api d l) : Api (Circuit.addCircuit c d) (k + l) := by
  refine ⟨?_, by rw [C16_additive, h.2, g.2]; push_cast; rfl⟩
  intro x hx
  rw [addCircuit_eq] at hx
  rcases List.mem_append.1 hx with hx | hx
  exacts [h.1 x hx, g.1 x hx]

theorem Api.adj {c : Circuit} {k : ℕ} (h : Api c k) : Api c.adjoint k := by
  refine ⟨?_, by rw [C16_adjoint c h.1, h.2]⟩
  intro x hx
  unfold Circuit.adjoint at hx
  rw [List.mem_reverse, List.mem_map] at hx
  obtain ⟨g, hg, rfl⟩ := hx
  exact .adj (h.1 g hg)

/-! ### exponentials of Pauli strings -/

structure VarsInv (v : ExpoVars) (k : ℕ) : Prop where
  toZ : Api v.toZ 0
  cX : Api v.cX (k - 1)
  prev : v.prevTarget = none ↔ k = 0

theorem expoStep_inv {v w : ExpoVars} {k : ℕ} (h : VarsInv v k) {g : Gate} (hw : expoStep v g = .ok w) :
    VarsInv w (k + if g.label ≠ "I" then 1 else 0) := by
  unfold expoStep at hw
  obtain ⟨v1, e1, hw⟩ := bind_ok hw
  have h1 : VarsInv v1 k := by
    by_cases hx : g.label = "X"
    · rw [if_pos hx] at e1
      obtain ⟨a, ea, e1⟩ := bind_ok e1
      obtain ⟨b, eb, e1⟩ := bind_ok e1
      cases e1
      obtain ⟨l, ha⟩ := py2_label ea
      exact ⟨h.toZ.add ha (by rw [l]; decide) (by rw [l]; decide), h.cX, h.prev⟩
    · rw [if_neg hx] at e1
      by_cases hy : g.label = "Y"
      · rw [if_pos hy] at e1
        obtain ⟨a, ea, e1⟩ := bind_ok e1
        obtain ⟨b, eb, e1⟩ := bind_ok e1
        cases e1
        obtain ⟨l, ha⟩ := py3_label ea
        exact ⟨h.toZ.add ha (by rw [l]; decide) (by rw [l]; decide), h.cX, h.prev⟩
      · rw [if_neg hy] at e1; cases e1; exact h
  by_cases hi : g.label = "I"
  · rw [if_pos hi] at hw; cases hw; simpa [hi] using h1
  · rw [if_neg hi] at hw
    obtain ⟨v2, e2, hw⟩ := bind_ok hw
    cases hw
    simp only [ne_eq, hi, not_false_eq_true, if_true]
    rcases hp : v1.prevTarget with _ | p
    · rw [hp] at e2; cases e2
      have := h1.prev.1 hp
      subst this
      exact ⟨h1.toZ, h1.cX, by simp⟩
    · rw [hp] at e2
      obtain ⟨x, ex, e2⟩ := bind_ok e2
      cases e2
      obtain ⟨l, hx⟩ := py2_label ex
      have hk : k ≠ 0 := fun e => by have := h1.prev.2 e; rw [hp] at this; cases this
      refine ⟨h1.toZ, ?_, by simp⟩
      have := h1.cX.cnot hx (by rw [l]; decide)
      rwa [show k - 1 + 1 = k + 1 - 1 by omega] at this

theorem expoFold_inv : ∀ (term : Circuit) {v w : ExpoVars} {k : ℕ}, VarsInv v k → term.foldlM expoStep v = .ok w → VarsInv w (k + weight term)
  | [], v, w, k, h, e => by cases e; simpa [weight] using h
  | g :: term, v, w, k, h, e => by
    rw [List.foldlM_cons] at e
    obtain ⟨v1, e1, e⟩ := bind_ok e
    have := expoFold_inv term (expoStep_inv h e1) e
    rw [show k + weight (g :: term) = k + (if g.label ≠ "I" then 1 else 0) + weight term by
      unfold weight; rw [List.countP_cons]; by_cases hi : g.label = "I" <;> simp [hi]; omega]
    exact this

theorem expo_api {z : ℂ} {term : Circuit} {b : Bool} {anc : Option ℕ} {u : Bool} {C : Circuit} {ph : ℂ}
    (h : exponentiatePauliString z term b anc u = .ok (C, ph)) : Api C (ladderCost (weight term)) := by
  unfold exponentiatePauliString at h
  by_cases h1 : 1e-14 < |z.re|
  · rw [if_pos h1] at h; cases h
  rw [if_neg h1] at h
  by_cases h2 : term.length = 0
  · rw [if_pos h2] at h
    cases h
    rw [List.length_eq_zero_iff] at h2
    subst h2; exact Api.nil
  rw [if_neg h2] at h
  obtain ⟨v, e1, h⟩ := bind_ok h
  have hv := expoFold_inv term (k := 0) ⟨Api.nil, Api.nil, by simp⟩ e1
  rw [zero_add] at hv
  obtain ⟨zr, e2, h⟩ := bind_ok h
  have hz : ApiGate zr ∧ isCnotLabel zr.label = false ∧ isTripleLabel zr.label = false := by
    cases b
    · obtain ⟨l, hg⟩ := py3Opt_label e2
      exact ⟨hg, by rw [l]; decide, by rw [l]; decide⟩
    · obtain ⟨l, hg⟩ := py3Opt_label e2
      exact ⟨hg, by rw [l]; decide, by rw [l]; decide⟩
  have hX : ∀ {e e' : Circuit} {k : ℕ}, Api e k → (if u = true then (pyGate2Opt "X" anc anc >>= fun x => pure (e.addGate x)) else pure e : Except Exc Circuit) = .ok e' → Api e' k := by
    intro e e' k he h
    cases u
    · cases h; exact he
    · obtain ⟨x, ex, h⟩ := bind_ok h
      cases h
      obtain ⟨l, hg⟩ := py2Opt_label ex
      exact he.add hg (by rw [l]; decide) (by rw [l]; decide)
  obtain ⟨f1, e3, h⟩ := bind_ok h
  have g1 := hX ((Api.nil.cat hv.toZ).cat hv.cX) e3
  obtain ⟨f3, e4, h⟩ := bind_ok h
  have g3 := hX (g1.add hz.1 hz.2.1 hz.2.2) e4
  cases h
  have := (g3.cat hv.cX.adj).cat hv.toZ.adj
  rwa [show 0 + 0 + (weight term - 1) + (weight term - 1) + 0 = ladderCost (weight term) by unfold ladderCost; omega] at this

theorem trotterLoop_api (cr : Bool × Option ℕ × Bool) (f : ℂ → ℂ) (A : QubitOperator) {C : Circuit} {ph : ℂ} (h : trotterLoop cr f A = .ok (C, ph)) :
    Api C (A.map fun t => ladderCost (weight t.2)).sum := by
  unfold trotterLoop at h
  have : ∀ (A : QubitOperator) (s s' : Circuit × ℂ) (k : ℕ), Api s.1 k → A.foldlM (fun s t => do
      let (gen, ph) ← exponentiatePauliString (f t.1) t.2 cr.1 cr.2.1 cr.2.2
      pure (gen.foldl Circuit.addGate s.1, s.2 * ph)) s = .ok s' → Api s'.1 (k + (A.map fun t => ladderCost (weight t.2)).sum) := by
    intro A
    induction A with
    | nil => intro s s' k hs h; cases h; simpa using hs
    | cons t A ih =>
      intro s s' k hs h
      rw [List.foldlM_cons] at h
      obtain ⟨s1, h1, h⟩ := bind_ok h
      obtain ⟨⟨gen, p⟩, h2, h1⟩ := bind_ok h1
      cases h1
      have hg := expo_api h2
      have := ih _ s' (k + ladderCost (weight t.2)) (hs.cat hg) h
      rwa [List.map_cons, List.sum_cons, ← add_assoc]
  simpa using this A ([], 1) (C, ph) 0 Api.nil h

/-! ### compact circuits -/

theorem foldlM_api {α : Type} (f : Circuit → α → Except Exc Circuit) (d : ℕ) (hf : ∀ c k x c', Api c k → f c x = .ok c' → Api c' (k + d)) :
    ∀ (l : List α) (c c' : Circuit) (k : ℕ), Api c k → l.foldlM f c = .ok c' → Api c' (k + d * l.length)
  | [], c, c', k, h, e => by cases e; simpa using h
  | x :: l, c, c', k, h, e => by
    rw [List.foldlM_cons] at e
    obtain ⟨c1, e1, e⟩ := bind_ok e
    have := foldlM_api f d hf l c1 c' _ (hf c k x c1 h e1) e
    rwa [List.length_cons, show k + d * (l.length + 1) = k + d + d * l.length by ring]

theorem sign_api {cre ann : List ℕ} {C : Circuit} (h : fermionSignCircuit cre ann = .ok C) {idx : List ℕ} (hi : signIndices cre ann = .ok idx) :
    Api C (idx.length - 1) := by
  unfold fermionSignCircuit at h
  rw [hi] at h
  simp only [except_ok_bind] at h
  by_cases h0 : idx = []
  · rw [if_pos h0] at h; cases h; subst h0; exact Api.nil
  rw [if_neg h0] at h
  obtain ⟨c1, e1, h⟩ := bind_ok h
  obtain ⟨t, _, h⟩ := bind_ok h
  obtain ⟨s, _, h⟩ := bind_ok h
  obtain ⟨g, eg, h⟩ := bind_ok h
  cases h
  have := foldlM_api _ 1 (fun c k i c' hc e => by
    obtain ⟨t, _, e⟩ := bind_ok e
    obtain ⟨s, _, e⟩ := bind_ok e
    obtain ⟨g, eg, e⟩ := bind_ok e
    cases e
    obtain ⟨l, hg⟩ := py2_label eg
    exact hc.cnot hg (by rw [l]; decide)) _ _ _ 0 Api.nil e1
  rw [List.length_range, zero_add, one_mul] at this
  obtain ⟨l, hg⟩ := py2_label eg
  exact this.add hg (by rw [l]; decide) (by rw [l]; decide)

theorem ryControl_api {target : ℕ} {controls : List ℕ} (h0 : controls ≠ []) {gsd : Bool} {i : ℕ} {c C : Circuit} {k : ℕ} (hc : Api c k)
    (h : ryControl target controls gsd i c = .ok C) : Api C (k + 1) := by
  unfold ryControl at h
  have hs : (controls.zipIdx.find? fun x => (i + 1) % (2 ^ controls.length / 2 ^ (x.2 + 1)) = 0).isSome := by
    have hl : 0 < controls.length := List.length_pos_iff.2 h0
    rw [List.find?_isSome]
    refine ⟨(controls[controls.length - 1]'(by omega), controls.length - 1), ?_, ?_⟩
    · rw [List.mem_zipIdx_iff_getElem?]; simp
    · simp only [decide_eq_true_eq]
      rw [show controls.length - 1 + 1 = controls.length by omega, Nat.div_self (by positivity), Nat.mod_one]
  obtain ⟨⟨q, j⟩, hq⟩ := Option.isSome_iff_exists.1 hs
  simp only [hq] at h
  have fin : ∀ ty, isCnotLabel ty = true → (pyGate2 ty target q >>= fun g => pure (c.addGate g)) = .ok C → Api C (k + 1) := by
    intro ty hty h
    obtain ⟨g, eg, h⟩ := bind_ok h
    cases h
    obtain ⟨l, hg⟩ := py2_label eg
    exact hc.cnot hg (by rw [l]; exact hty)
  by_cases h1 : (i + 1) % (2 ^ controls.length / 2) = 0 ∨ i = 2 ^ controls.length - 1
  · rw [if_pos h1] at h; exact fin _ (by decide) h
  · rw [if_neg h1] at h
    cases gsd
    · exact fin _ (by decide) h
    · exact fin _ (by decide) h

theorem multiRy_api {theta : ℂ} {target : ℕ} {cc ca gc : List ℕ} {sg : ℤ} {q : Bool} {C : Circuit}
    (h : multiQubitControlledRy theta target cc ca gc sg q = .ok C) : Api C (2 ^ (ca.length + cc.length + gc.length)) := by
  unfold multiQubitControlledRy at h
  by_cases h0 : (ca ++ cc.reverse ++ gc).length = 0
  · simp only [h0, if_true] at h; cases h
  simp only [h0, if_false] at h
  have := foldlM_api _ 1 (fun c k i c' hc e => by
    obtain ⟨g, eg, e⟩ := bind_ok e
    obtain ⟨l, hg⟩ := py3_label eg
    exact ryControl_api (fun e => h0 (by rw [e]; rfl)) (hc.add hg (by rw [l]; decide) (by rw [l]; decide)) e) _ _ _ 0 Api.nil h
  rw [List.length_range, zero_add, one_mul] at this
  simpa [add_assoc] using this

theorem qubitExcitation_api {theta : ℂ} {cre ann gc : List ℕ} {sg : ℤ} {q : Bool} {C : Circuit} (h : qubitExcitation theta cre ann gc sg q = .ok C)
    (hl : cre.length = ann.length) : Api C (2 ^ (2 * cre.length - 1 + gc.length) + 2 * (2 * cre.length - 1)) := by
  unfold qubitExcitation at h
  have lad : ∀ (l m : List ℕ) (c c' : Circuit) (k : ℕ), Api c k → l.foldlM (fun c t => do
      let c0 ← pyIndex m 0
      let g ← pyGate2 "CNOT" t c0
      pure (Circuit.addGate c g)) c = .ok c' → Api c' (k + 1 * l.length) := fun l m => foldlM_api _ 1 (fun c k i c' hc e => by
    obtain ⟨t, _, e⟩ := bind_ok e
    obtain ⟨g, eg, e⟩ := bind_ok e
    cases e
    obtain ⟨l, hg⟩ := py2_label eg
    exact hc.cnot hg (by rw [l]; decide)) _
  obtain ⟨c1, e1, h⟩ := bind_ok h
  have h1 := lad _ _ _ _ 0 Api.nil e1
  obtain ⟨c2, e2, h⟩ := bind_ok h
  have h2 := lad _ _ _ _ _ h1 e2
  obtain ⟨a0, ea, h⟩ := bind_ok h
  obtain ⟨c0, ec, h⟩ := bind_ok h
  obtain ⟨g, eg, h⟩ := bind_ok h
  obtain ⟨l, hg⟩ := py2_label eg
  have h3 := h2.cnot hg (by rw [l]; decide)
  obtain ⟨r, er, h⟩ := bind_ok h
  have h4 := multiRy_api er
  cases h
  have hpos : 0 < cre.length := by
    rcases cre with _ | ⟨x, cre⟩
    · cases ec
    · simp
  have := (h3.cat h4).cat h3.adj
  simp only [List.length_tail] at this
  rwa [show ann.length + (cre.length - 1) + gc.length = 2 * cre.length - 1 + gc.length by omega,
    show 0 + 1 * (cre.length - 1) + 1 * (ann.length - 1) + 1 + 2 ^ (2 * cre.length - 1 + gc.length) + (0 + 1 * (cre.length - 1) + 1 * (ann.length - 1) + 1) =
      2 ^ (2 * cre.length - 1 + gc.length) + 2 * (2 * cre.length - 1) by omega] at this

/-- the column of signs -/
theorem signColumn_iff (idx : List ℕ) (j : ℕ) : signColumn idx j = true ↔ j ∈ signQubits idx := by
  have : ∀ (l : List ℕ) (b : Bool), l.foldl (fun b p => b ^^ decide (j < p)) b = (b ^^ decide (Odd (l.countP (j < ·)))) := by
    intro l
    induction l with
    | nil => intro b; simp
    | cons p l ih =>
      intro b
      rw [List.foldl_cons, ih, List.countP_cons]
      by_cases hp : j < p
      · simp only [hp, decide_true, if_true, Nat.odd_add_one]
        by_cases ho : Odd (l.countP (j < ·)) <;> cases b <;> simp [ho]
      · simp [hp]
  unfold signColumn signQubits
  by_cases hj : j ∈ idx
  · simp [hj]
  · rw [if_neg hj, this]; simp [hj]

theorem signQubits_lt {idx : List ℕ} {m : ℕ} (hm : ∀ p ∈ idx, p ≤ m) {j : ℕ} (h : j ∈ signQubits idx) : j < m := by
  have h1 : 0 < idx.countP (j < ·) := h.2.pos
  obtain ⟨p, hp, hj⟩ := List.countP_pos_iff.1 h1
  have := hm p hp
  simp only [decide_eq_true_eq] at hj
  omega

theorem signIndices_length {cre ann idx : List ℕ} (h : signIndices cre ann = .ok idx) : idx.length = (signQubits (cre ++ ann)).ncard := by
  unfold signIndices at h
  rcases hm : (cre ++ ann).max? with _ | m
  · rw [hm] at h; cases h
  rw [hm] at h
  cases h
  have hle : ∀ p ∈ cre ++ ann, p ≤ m := fun p hp => (List.max?_le_iff hm).1 le_rfl p hp
  have e : signQubits (cre ++ ann) = ((Finset.range (m + 1)).filter fun j => signColumn (cre ++ ann) j = true : Finset ℕ) := by
    ext j
    simp only [Finset.coe_filter, Finset.mem_range, Set.mem_ofPred_eq, signColumn_iff]
    exact ⟨fun hj => ⟨by have := signQubits_lt hle hj; omega, hj⟩, fun hj => hj.2⟩
  rw [e, Set.ncard_coe_finset, List.length_reverse]
  rw [show Finset.range (m + 1) = (List.range (m + 1)).toFinset by ext; simp, ← List.toFinset_filter, List.toFinset_card_of_nodup (List.nodup_range.filter _)]

end Cost

/-! ### C102 -/

/-- C102: the circuit of `exp(c P)` for a Pauli string of `k ≥ 1` letters has `2 (k - 1)` CNOT gates, controlled on an ancilla (even an
open control) or not, and whatever the coefficient -/
theorem C102_pauli (z : ℂ) (term : Circuit) (useCRz : Bool) (anc : Option ℕ) (useOpen : Bool) {C : Circuit} {ph : ℂ}
    (h : exponentiatePauliString z term useCRz anc useOpen = .ok (C, ph)) : C.getNumCnots = ladderCost (weight term) :=
  (Cost.expo_api h).2

/-- a Trotter circuit has `N` times the CNOT gates of the exponentials of its strings: the number does not depend on the time step -/
theorem Cost.trotterBody_count (A : QubitOperator) (factor : ℂ) (N order : ℤ) (cr : Bool × Option ℕ × Bool) {C : Circuit} {ph : ℂ}
    (h : trotterBody cr A factor N order = .ok (C, ph)) : C.getNumCnots = (N.toNat * (A.map fun t => ladderCost (weight t.2)).sum : ℕ) := by
  unfold trotterBody at h
  by_cases h1 : N = 1 ∧ order = 1
  · rw [if_pos h1] at h
    rw [(Cost.trotterLoop_api _ _ _ h).2, h1.1]; simp
  rw [if_neg h1] at h
  by_cases h2 : 1 < order
  · rw [if_pos h2] at h; cases h
  rw [if_neg h2] at h
  rw [(Cost.trotterLoop_api _ _ _ h).2]
  congr 1
  unfold trotterTerms
  have h3 : ∀ (A B : QubitOperator), ((A.foldl (fun ho t => QubitOperator.addTerm ho (factor * t.1 / (N : ℂ)) t.2) B).map fun t => ladderCost (weight t.2)).sum =
      (B.map fun t => ladderCost (weight t.2)).sum + (A.map fun t => ladderCost (weight t.2)).sum := by
    intro A
    induction A with
    | nil => intro B; simp
    | cons t A ih => intro B; rw [List.foldl_cons, ih]; simp [QubitOperator.addTerm]; ring
  generalize N.toNat = n
  induction n with
  | zero => simp
  | succ n ih => rw [List.range_succ, List.foldl_append, List.foldl_cons, List.foldl_nil, h3, ih]; ring

/-- C102: `trotterize` and `trotterize_w_cRz` give circuits with `N` times the CNOT gates of the exponentials of the strings: the number does
not depend on the time step -/
theorem C102_trotter (A : QubitOperator) (factor : ℂ) (N order : ℤ) (anc : ℕ) (useOpen : Bool) {C : Circuit} {ph : ℂ}
    (h : trotterize A factor N order = .ok (C, ph) ∨ trotterizeWCRz A anc factor useOpen N order = .ok (C, ph)) :
    C.getNumCnots = (N.toNat * (A.map fun t => ladderCost (weight t.2)).sum : ℕ) := by
  rcases h with h | h
  · exact Cost.trotterBody_count _ _ _ _ _ h
  · exact Cost.trotterBody_count _ _ _ _ _ h

/-- C102: the compact circuit of an excitation of `r` electrons between different spin orbitals has `2 ^ (2 r - 1) + 2 (2 r - 1)` CNOT gates, and
those of a ladder through the qubits with a sign and back; `cZ` gates are not counted -/
theorem C102_compact (theta : ℂ) (cre ann : List ℕ) (q : Bool) (hd : ∀ p ∈ cre, p ∉ ann) {C : Circuit}
    (h : compactExcitationCircuit theta cre ann q = .ok C) : C.getNumCnots = compactCost cre.length 0 (signWidth q (cre ++ ann)) := by
  unfold compactExcitationCircuit at h
  by_cases hl : cre.length ≠ ann.length
  · rw [if_pos hl] at h; cases h
  rw [if_neg hl] at h
  rw [not_not] at hl
  have e1 : cre.filter (· ∉ ann) = cre := List.filter_eq_self.2 (by simpa using hd)
  have e2 : ann.filter (· ∉ cre) = ann := List.filter_eq_self.2 (by
    intro p hp; simp only [decide_eq_true_eq]; exact fun hc => hd p hc hp)
  have e3 : (cre.filter (· ∈ ann)).dedup = [] := by
    rw [List.filter_eq_nil_iff.2 (by simpa using hd)]; rfl
  simp only [e1, e2, e3] at h
  rw [if_neg (by simp)] at h
  simp only [pure, Except.pure, except_ok_bind] at h
  cases q
  · simp only [Bool.false_eq_true, if_false] at h
    obtain ⟨st, es, h⟩ := Cost.bind_ok h
    obtain ⟨e, ee, h⟩ := Cost.bind_ok h
    cases h
    obtain ⟨idx, ei⟩ : ∃ idx, signIndices cre ann = .ok idx := by
      unfold fermionSignCircuit at es
      obtain ⟨idx, ei, _⟩ := Cost.bind_ok es
      exact ⟨idx, ei⟩
    have hs := Cost.sign_api es ei
    have he := Cost.qubitExcitation_api ee hl
    have := (((Cost.Api.nil.cat hs).cat he).cat hs.adj).2
    rw [this]
    congr 1
    rw [Cost.signIndices_length ei]
    simp only [compactCost, ladderCost, signWidth, List.length_nil]
    simp only [Bool.false_eq_true, if_false]
    omega
  · simp only [if_true, except_ok_bind] at h
    obtain ⟨e, ee, h⟩ := Cost.bind_ok h
    cases h
    have he := Cost.qubitExcitation_api ee hl
    have := ((Cost.Api.nil.cat Cost.Api.nil).cat he).2
    rw [this]
    congr 1
    simp only [compactCost, ladderCost, signWidth, List.length_nil, if_true]
    omega

end QF
