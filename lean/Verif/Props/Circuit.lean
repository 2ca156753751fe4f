import Verif.Lemmas.SimplifyOk
import Verif.Lemmas.Exact

/-!
Properties C11–C17: editing, parameters, sizes, simplification, counting and equality of circuits.
-/
namespace QF

/-! ### C11 -/

/-- a call of one of the editing methods of `Circuit` -/
inductive Edit where
  | addGate (g : Gate)
  | addCircuit (d : Circuit)
  | insertGate (pos : ℕ) (g : Gate)
  | removeGate (pos : ℕ)
  | replaceGate (pos : ℕ) (g : Gate)
  | swapGates (p q : ℕ)
  | insertCircuit (pos : ℕ) (d : Circuit)
  | removeGates (p q : ℕ)

/-- the model of the call -/
def Edit.run : Edit → Circuit → Except Exc Circuit
  | .addGate g, c => .ok (c.addGate g)
  | .addCircuit d, c => .ok (c.addCircuit d)
  | .insertGate pos g, c => c.insertGate pos g
  | .removeGate pos, c => c.removeGate pos
  | .replaceGate pos g, c => c.replaceGate pos g
  | .swapGates p q, c => c.swapGates p q
  | .insertCircuit pos d, c => c.insertCircuit pos d
  | .removeGates p q, c => c.removeGates p q

/-- specification: which positions are accepted for a circuit of `n` gates -/
def Edit.Valid (n : ℕ) : Edit → Prop
  | .addGate _ => True
  | .addCircuit _ => True
  | .insertGate pos _ => pos ≤ n
  | .removeGate pos => pos < n
  | .replaceGate pos _ => pos < n
  | .swapGates p q => p < n ∧ q < n
  | .insertCircuit pos _ => pos ≤ n
  | .removeGates p q => p < n ∧ q < n

/-- specification: the gate at every position `i` of the edited circuit -/
def Edit.at' (e : Edit) (c : Circuit) (i : ℕ) : Option Gate :=
  match e with
  | .addGate g => if i = c.length then some g else c[i]?
  | .addCircuit d => if i < c.length then c[i]? else d[i - c.length]?
  | .insertGate pos g => if i < pos then c[i]? else if i = pos then some g else c[i - 1]?
  | .removeGate pos => if i < pos then c[i]? else c[i + 1]?
  | .replaceGate pos g => if i = pos then some g else c[i]?
  | .swapGates p q => if i = p then c[q]? else if i = q then c[p]? else c[i]?
  | .insertCircuit pos d =>
    if i < pos then c[i]? else if i < pos + d.length then d[i - pos]? else c[i - d.length]?
  | .removeGates p q => if i < p then c[i]? else c[i + (q - p)]?

/-- the one call with undefined behaviour: `remove_gates(pos1, pos2)` with an inverted range -/
def Edit.Inverted : Edit → Prop
  | .removeGates p q => q < p
  | _ => False

theorem addCircuit_eq (c d : Circuit) : c.addCircuit d = c ++ d := by
  unfold Circuit.addCircuit
  induction d generalizing c with
  | nil => simp
  | cons g d ih => simp [ih, Circuit.addGate]

/-- C11: an accepted edit puts exactly the specified gate at every position; any other edit raises
`runtime_error` (and the position checks come before any modification, so the circuit is unchanged). -/
theorem C11_edit (e : Edit) (c : Circuit) (hi : ¬ e.Inverted) :
    (e.Valid c.length ∧ ∃ c', e.run c = .ok c' ∧ ∀ i, c'[i]? = e.at' c i) ∨
    (¬ e.Valid c.length ∧ e.run c = .error .runtimeError) := by
  cases e with
  | addGate g =>
    left; refine ⟨trivial, _, rfl, ?_⟩
    intro i
    simp only [Edit.at', Circuit.addGate, List.getElem?_append]
    by_cases h : i < c.length
    · rw [if_pos h, if_neg (by omega)]
    · rw [if_neg h]
      by_cases h2 : i = c.length
      · subst h2; simp
      · rw [if_neg h2, List.getElem?_eq_none (by simp; omega), List.getElem?_eq_none (by omega)]
  | addCircuit d =>
    left; refine ⟨trivial, _, rfl, ?_⟩
    intro i
    simp only [Edit.at', addCircuit_eq, List.getElem?_append]
  | insertGate pos g =>
    by_cases h : pos ≤ c.length
    · left; refine ⟨h, _, by simp only [Edit.run, Circuit.insertGate]; rw [if_neg (by omega)], ?_⟩
      intro i
      simp only [Edit.at']
      rw [List.getElem?_append, List.length_take, Nat.min_eq_left h]
      by_cases h1 : i < pos
      · rw [if_pos h1, if_pos h1, List.getElem?_take, if_pos h1]
      · rw [if_neg h1, if_neg h1]
        by_cases h2 : i = pos
        · subst h2; simp
        · rw [if_neg h2, List.getElem?_cons, if_neg (by omega), List.getElem?_drop]
          congr 1; omega
    · right; exact ⟨h, by simp only [Edit.run, Circuit.insertGate]; rw [if_pos (by omega)]⟩
  | removeGate pos =>
    by_cases h : pos < c.length
    · left; refine ⟨h, _, by simp only [Edit.run, Circuit.removeGate]; rw [if_neg (by omega)], ?_⟩
      intro i
      simp only [Edit.at']
      rw [List.getElem?_append, List.length_take, Nat.min_eq_left h.le]
      by_cases h1 : i < pos
      · rw [if_pos h1, if_pos h1, List.getElem?_take, if_pos h1]
      · rw [if_neg h1, if_neg h1, List.getElem?_drop]; congr 1; omega
    · right; exact ⟨h, by simp only [Edit.run, Circuit.removeGate]; rw [if_pos (by omega)]⟩
  | replaceGate pos g =>
    by_cases h : pos < c.length
    · left; refine ⟨h, _, by simp only [Edit.run, Circuit.replaceGate]; rw [if_neg (by omega)], ?_⟩
      intro i
      simp only [Edit.at', List.getElem?_set]
      by_cases h1 : i = pos
      · subst h1; simp [h]
      · rw [if_neg (fun h => h1 h.symm), if_neg h1]
    · right; exact ⟨h, by simp only [Edit.run, Circuit.replaceGate]; rw [if_pos (by omega)]⟩
  | swapGates p q =>
    by_cases h : p < c.length ∧ q < c.length
    · left; refine ⟨h, (c.set p c[q]).set q c[p], ?_, ?_⟩
      · simp only [Edit.run, Circuit.swapGates]
        rw [if_neg (by omega), List.getElem?_eq_getElem h.1, List.getElem?_eq_getElem h.2]
      · intro i
        simp only [Edit.at', List.getElem?_set, List.length_set]
        by_cases h1 : i = p
        · subst h1
          by_cases h2 : i = q
          · subst h2; simp [h]
          · rw [if_neg (fun h => h2 h.symm)]; simp [h]
        · by_cases h2 : i = q
          · subst h2; simp [h, h1]
          · rw [if_neg (fun h => h2 h.symm), if_neg (fun h => h1 h.symm), if_neg h1, if_neg h2]
    · right; exact ⟨h, by simp only [Edit.run, Circuit.swapGates]; rw [if_pos (by omega)]⟩
  | insertCircuit pos d =>
    by_cases h : pos ≤ c.length
    · left; refine ⟨h, _, by simp only [Edit.run, Circuit.insertCircuit]; rw [if_neg (by omega)], ?_⟩
      intro i
      simp only [Edit.at']
      rw [List.append_assoc, List.getElem?_append, List.length_take, Nat.min_eq_left h]
      by_cases h1 : i < pos
      · rw [if_pos h1, if_pos h1, List.getElem?_take, if_pos h1]
      · rw [if_neg h1, if_neg h1, List.getElem?_append]
        by_cases h2 : i < pos + d.length
        · rw [if_pos h2, if_pos (by omega)]
        · rw [if_neg h2, if_neg (by omega), List.getElem?_drop]; congr 1; omega
    · right; exact ⟨h, by simp only [Edit.run, Circuit.insertCircuit]; rw [if_pos (by omega)]⟩
  | removeGates p q =>
    have hi : p ≤ q := by simpa [Edit.Inverted] using hi
    by_cases h : p < c.length ∧ q < c.length
    · left; refine ⟨h, _, by simp only [Edit.run, Circuit.removeGates]; rw [if_neg (by omega), if_neg (by omega)], ?_⟩
      intro i
      simp only [Edit.at']
      rw [List.getElem?_append, List.length_take, Nat.min_eq_left h.1.le]
      by_cases h1 : i < p
      · rw [if_pos h1, if_pos h1, List.getElem?_take, if_pos h1]
      · rw [if_neg h1, if_neg h1, List.getElem?_drop]; congr 1; omega
    · right; exact ⟨h, by simp only [Edit.run, Circuit.removeGates]; rw [if_pos (by omega)]⟩

/-- a sequence of editing calls; a call that raises leaves the circuit as it was -/
def runEdits (c : Circuit) : List Edit → Circuit
  | [] => c
  | e :: es => match e.run c with
    | .ok c' => runEdits c' es
    | .error _ => runEdits c es

/-- specification of a history: `Spec c es c'` if `c'` can be reached from `c` by the position-wise
specification of each accepted edit, ignoring the others -/
inductive EditHistory : Circuit → List Edit → Circuit → Prop
  | nil (c : Circuit) : EditHistory c [] c
  | accepted {c c1 c2 : Circuit} {e : Edit} {es : List Edit} : e.Valid c.length → (∀ i, c1[i]? = e.at' c i) →
      EditHistory c1 es c2 → EditHistory c (e :: es) c2
  | rejected {c c2 : Circuit} {e : Edit} {es : List Edit} : ¬ e.Valid c.length →
      EditHistory c es c2 → EditHistory c (e :: es) c2

/-- C11: every history of edits (no inverted range) follows the specification, which determines the result. -/
theorem C11_history (c : Circuit) (es : List Edit) (h : ∀ e ∈ es, ¬ e.Inverted) :
    EditHistory c es (runEdits c es) ∧ ∀ c', EditHistory c es c' → c' = runEdits c es := by
  induction es generalizing c with
  | nil => exact ⟨.nil c, fun c' h => by cases h; rfl⟩
  | cons e es ih =>
    have hes : ∀ e ∈ es, ¬ e.Inverted := fun x hx => h x (by simp [hx])
    rcases C11_edit e c (h e (by simp)) with ⟨hv, c1, h1, h2⟩ | ⟨hv, h1⟩
    · have := ih c1 hes
      simp only [runEdits, h1]
      refine ⟨.accepted hv h2 this.1, ?_⟩
      intro c' hc'
      cases hc' with
      | accepted _ h2' h3' =>
        have := List.ext_getElem? (fun i => (h2' i).trans (h2 i).symm)
        subst this
        exact (ih _ hes).2 _ h3'
      | rejected hv' => exact absurd hv hv'
    · simp only [runEdits, h1]
      refine ⟨.rejected hv (ih c hes).1, ?_⟩
      intro c' hc'
      cases hc' with
      | accepted hv' => exact absurd hv' hv
      | rejected _ h3' => exact (ih c hes).2 _ h3'

/-- C11 (finding): the half-open range of `remove_gates` cannot reach the end of the circuit: the last gate
cannot be removed with it. -/
theorem C11_remove_gates_never_removes_last (c c' : Circuit) (p q : ℕ) (h : c.removeGates p q = .ok c') :
    c' ≠ [] ∧ c'.getLast? = c.getLast? := by
  unfold Circuit.removeGates at h
  split_ifs at h with h1 h2
  cases h
  have hq : q < c.length := by omega
  have hd : c.drop q ≠ [] := by
    intro h; have := congrArg List.length h; simp at this; omega
  refine ⟨by simp; intro _; omega, ?_⟩
  rw [List.getLast?_append_of_ne_nil _ hd, List.getLast?_drop]
  simp [hq]

/-- a three-gate circuit and edits that are accepted / rejected -/
example : ∃ g, makeGate "X" 0 0 0 = .ok g ∧ (Edit.removeGates 0 2).Valid [g, g, g].length ∧
    ¬ (Edit.removeGates 0 3).Valid [g, g, g].length ∧ ¬ (Edit.removeGates 0 2).Inverted := by
  exact ⟨_, makeGate_of_made (.X 0 0), by simp [Edit.Valid], by simp [Edit.Valid], by simp [Edit.Inverted]⟩

/-! ### C12 -/

/-- number of parametrised gates before position `i` -/
def paramsBefore (c : Circuit) (i : ℕ) : ℕ := ((c.take i).filter (·.hasParameter)).length

theorem param_none {g : Gate} : g.parameter = none ↔ g.hasParameter = false := by
  unfold Gate.parameter Gate.hasParameter; cases g.param <;> simp

theorem param_some {g : Gate} {p : ℝ} (h : g.parameter = some p) : g.hasParameter = true := by
  unfold Gate.parameter at h; unfold Gate.hasParameter; cases hp : g.param <;> simp_all

/-- C12: `get_parameters` lists the stored parameters of the parametrised gates in gate order. -/
theorem C12_get_parameters (c : Circuit) :
    c.getParameters.length = (c.filter (·.hasParameter)).length ∧
    ∀ i g p, c[i]? = some g → g.parameter = some p → c.getParameters[paramsBefore c i]? = some p := by
  unfold Circuit.getParameters paramsBefore
  induction c with
  | nil => simp
  | cons g c ih =>
    rcases hp : g.parameter with _ | v
    · have h0 := param_none.1 hp
      rw [List.filterMap_cons_none hp]
      refine ⟨by rw [ih.1]; simp [h0], ?_⟩
      intro i g' p hi hg'
      cases i with
      | zero => simp at hi; subst hi; rw [hp] at hg'; cases hg'
      | succ i =>
        simp only [List.getElem?_cons_succ] at hi
        have := ih.2 i g' p hi hg'
        simpa [h0] using this
    · have h0 := param_some hp
      rw [List.filterMap_cons_some hp]
      refine ⟨by simp [h0, ih.1], ?_⟩
      intro i g' p hi hg'
      cases i with
      | zero => simp at hi; subst hi; rw [hp] at hg'; cases hg'; simp
      | succ i =>
        simp only [List.getElem?_cons_succ] at hi
        have := ih.2 i g' p hi hg'
        simpa [h0] using this

theorem loop_spec (params : List ℝ) (c : Circuit) : ∀ (k : ℕ),
    (∀ g ∈ c, g.hasParameter = true → IsNamed g) →
    k + (c.filter (·.hasParameter)).length ≤ params.length →
    ∃ c', Circuit.setParametersLoop params c k = (c', .ok (k + (c.filter (·.hasParameter)).length)) ∧
      c'.length = c.length ∧
      ∀ i g, c[i]? = some g →
        (g.parameter = none → c'[i]? = some g) ∧
        ∀ p, g.parameter = some p → ∃ v, params[k + paramsBefore c i]? = some v ∧
          (|p - v| ≤ 1e-12 → c'[i]? = some g) ∧
          (1e-12 < |p - v| → ∃ g', makeGate g.label g.target g.control v = .ok g' ∧ c'[i]? = some g') := by
  induction c with
  | nil => intro k _ _; exact ⟨[], rfl, rfl, by simp⟩
  | cons g c ih =>
    intro k hn hk
    have hn' : ∀ g ∈ c, g.hasParameter = true → IsNamed g := fun x hx => hn x (by simp [hx])
    unfold Circuit.setParametersLoop
    rcases hp : g.parameter with _ | p
    · have h0 := param_none.1 hp
      obtain ⟨c', e1, e2, e3⟩ := ih k hn' (by simpa [h0] using hk)
      refine ⟨g :: c', by simp only; rw [e1]; simp [h0], by simp [e2], ?_⟩
      intro i g' hi
      cases i with
      | zero =>
        simp at hi; subst hi
        exact ⟨fun _ => rfl, fun p h => by rw [hp] at h; cases h⟩
      | succ i =>
        simp only [List.getElem?_cons_succ] at hi ⊢
        have : paramsBefore (g :: c) (i + 1) = paramsBefore c i := by simp [paramsBefore, h0]
        rw [this]
        exact e3 i g' hi
    · have h0 := param_some hp
      have hk' : k + 1 + (c.filter (·.hasParameter)).length ≤ params.length := by
        simp [h0] at hk; omega
      obtain ⟨c', e1, e2, e3⟩ := ih (k + 1) hn' hk'
      have hlt : k < params.length := by omega
      simp only [List.getElem?_eq_getElem hlt]
      obtain ⟨g1, hg1⟩ := named_any (hn g (by simp) h0) params[k]
      have hb : ∀ i, k + paramsBefore (g :: c) (i + 1) = k + 1 + paramsBefore c i := by
        intro i; simp [paramsBefore, h0]; omega
      have hlen : k + ((g :: c).filter (·.hasParameter)).length = k + 1 + (c.filter (·.hasParameter)).length := by
        simp [h0]; omega
      have hz : k + paramsBefore (g :: c) 0 = k := by simp [paramsBefore]
      by_cases hc : |p - params[k]| > 1e-12
      · rw [if_pos ⟨hc, hlt⟩, hg1]
        refine ⟨g1 :: c', by simp only; rw [e1, hlen], by simp [e2], ?_⟩
        intro i g' hi
        cases i with
        | zero =>
          simp at hi; subst hi
          constructor
          · intro h; rw [hp] at h; cases h
          intro p' h
          rw [hp] at h; cases h
          rw [hz]
          refine ⟨params[k], List.getElem?_eq_getElem hlt, fun h => absurd hc (not_lt.2 h), fun _ => ⟨g1, hg1, rfl⟩⟩
        | succ i =>
          simp only [List.getElem?_cons_succ] at hi ⊢
          rw [hb]
          exact e3 i g' hi
      · rw [if_neg (fun h => hc h.1)]
        refine ⟨g :: c', by simp only; rw [e1, hlen], by simp [e2], ?_⟩
        intro i g' hi
        cases i with
        | zero =>
          simp at hi; subst hi
          constructor
          · intro h; rw [hp] at h; cases h
          intro p' h
          rw [hp] at h; cases h
          rw [hz]
          refine ⟨params[k], List.getElem?_eq_getElem hlt, fun _ => rfl, fun h => absurd h hc⟩
        | succ i =>
          simp only [List.getElem?_cons_succ] at hi ⊢
          rw [hb]
          exact e3 i g' hi

theorem makeV_none {ty : String} {t c : ℕ} {θ : ℝ} {g : Gate} (h : Made ty t c θ g) (hty : ty = "V" ∨ ty = "cV") :
    g.param = none := by
  cases h <;> first | (exfalso; revert hty; decide) | rfl

/-- C12: with as many values as parametrised gates, `set_parameters` succeeds; gates without parameter are
untouched; the parametrised gate at position `i` keeps its value if the new one is within 1e-12 and is
otherwise replaced by the gate built from its own label and qubits with the new value, i.e. its action
becomes that of the named gate at the new angle.  (Gates made by `control_gate` are excluded: their label
"cU" is unknown to `make_gate`, see `C12_cU_not_settable`.) -/
theorem C12_set_parameters_partial (c : Circuit) (params : List ℝ)
    (hn : ∀ g ∈ c, g.hasParameter = true → ApiGate g ∧ g.label ≠ "cU" ∧ g.label ≠ "adj(cU)")
    (hl : params.length = (c.filter (·.hasParameter)).length) :
    ∃ c', c.setParameters params = (c', .ok ()) ∧ c'.length = c.length ∧
      ∀ i g, c[i]? = some g →
        (g.parameter = none → c'[i]? = some g) ∧
        ∀ p, g.parameter = some p → ∃ v, params[paramsBefore c i]? = some v ∧
          (|p - v| ≤ 1e-12 → c'[i]? = some g) ∧
          (1e-12 < |p - v| → ∃ g', makeGate g.label g.target g.control v = .ok g' ∧ c'[i]? = some g' ∧
            stdGate g.label g.target g.control v = some g'.op) := by
  have hn' : ∀ g ∈ c, g.hasParameter = true → IsNamed g := by
    intro g hg hp
    obtain ⟨h1, h2, h3⟩ := hn g hg hp
    rcases api_class h1 with h | ⟨_, u, hu, ha, hb⟩ | h
    · exact h
    · exfalso
      have hnone : u.param = none := by
        split_ifs at hu
        · have := makeV_none (made_of_makeGate hu) (.inl rfl); exact this
        · have := makeV_none (made_of_makeGate hu) (.inr rfl); exact this
      rcases hq : g.param with _ | ⟨p, m⟩
      · unfold Gate.hasParameter at hp; rw [hq] at hp; cases hp
      · rw [adjoint_param_some hq] at ha; rw [← ha] at hnone; cases hnone
    · exact absurd h.label (by tauto)
  obtain ⟨c', e1, e2, e3⟩ := loop_spec params c 0 hn' (by omega)
  refine ⟨c', ?_, e2, ?_⟩
  · unfold Circuit.setParameters
    rw [e1]
    simp [hl]
  · intro i g hi
    obtain ⟨f1, f2⟩ := e3 i g hi
    refine ⟨f1, fun p hp => ?_⟩
    obtain ⟨v, h1, h2, h3⟩ := f2 p hp
    rw [Nat.zero_add] at h1
    refine ⟨v, h1, h2, fun h => ?_⟩
    obtain ⟨g', a1, a2⟩ := h3 h
    exact ⟨g', a1, a2, (makeGate_spec a1).2.2.2⟩

/-- C12: too many values: `runtime_error` (after the gates have been updated) -/
theorem C12_too_many (c : Circuit) (params : List ℝ)
    (hn : ∀ g ∈ c, g.hasParameter = true → IsNamed g)
    (hl : (c.filter (·.hasParameter)).length < params.length) :
    (c.setParameters params).2 = .error .runtimeError := by
  obtain ⟨c', e1, _, _⟩ := loop_spec params c 0 hn (by omega)
  unfold Circuit.setParameters
  rw [e1]
  simp only
  rw [if_pos (by omega)]

/-- C12 (finding): too few values: `params[param_idx]` is read past the end before the bound is tested -/
theorem C12_too_few (c : Circuit) (params : List ℝ)
    (hn : ∀ g ∈ c, g.hasParameter = true → IsNamed g)
    (hl : params.length < (c.filter (·.hasParameter)).length) :
    (c.setParameters params).2 = .error .undefinedBehaviour := by
  have key : ∀ (c : Circuit) (k : ℕ), (∀ g ∈ c, g.hasParameter = true → IsNamed g) → k ≤ params.length →
      params.length < k + (c.filter (·.hasParameter)).length →
      (Circuit.setParametersLoop params c k).2 = .error .undefinedBehaviour := by
    intro c
    induction c with
    | nil => intro k _ h1 h2; simp at h2; omega
    | cons g c ih =>
      intro k hn h1 h2
      have hn' : ∀ g ∈ c, g.hasParameter = true → IsNamed g := fun x hx => hn x (by simp [hx])
      unfold Circuit.setParametersLoop
      rcases hp : g.parameter with _ | p
      · have h0 := param_none.1 hp
        exact ih k hn' h1 (by simpa [h0] using h2)
      · have h0 := param_some hp
        by_cases hk : k < params.length
        · simp only [List.getElem?_eq_getElem hk]
          obtain ⟨g1, hg1⟩ := named_any (hn g (by simp) h0) params[k]
          have := ih (k + 1) hn' hk (by simp [h0] at h2; omega)
          rw [hg1]
          split_ifs <;> exact this
        · simp only [List.getElem?_eq_none (not_lt.1 hk)]
  unfold Circuit.setParameters
  simp only
  rw [key c 0 hn (by omega) (by omega)]

/-- C12: writing back the values read leaves every circuit unchanged -/
theorem C12_round_trip (c : Circuit) : c.setParameters c.getParameters = (c, .ok ()) := by
  have key : ∀ (c : Circuit) (pre : List ℝ),
      Circuit.setParametersLoop (pre ++ c.getParameters) c pre.length =
        (c, .ok (pre.length + c.getParameters.length)) := by
    intro c
    induction c with
    | nil => intro pre; simp [Circuit.setParametersLoop, Circuit.getParameters]
    | cons g c ih =>
      intro pre
      unfold Circuit.setParametersLoop
      rcases hp : g.parameter with _ | p
      · have : Circuit.getParameters (g :: c) = Circuit.getParameters c := List.filterMap_cons_none hp
        rw [this]
        simp only
        rw [ih pre]
      · have : Circuit.getParameters (g :: c) = p :: Circuit.getParameters c := List.filterMap_cons_some hp
        rw [this]
        simp only [List.getElem?_append_right (le_refl _), Nat.sub_self, List.getElem?_cons_zero, sub_self, abs_zero]
        rw [if_neg (by norm_num)]
        have h1 := ih (pre ++ [p])
        simp only [List.append_assoc, List.singleton_append, List.length_append, List.length_singleton] at h1
        simp only [h1, List.length_cons]
        congr 2; omega
  have := key c []
  simp only [List.nil_append, List.length_nil, Nat.zero_add] at this
  unfold Circuit.setParameters
  rw [this]
  simp

/-- C12: `set_parameter(pos, v)` replaces exactly the gate at `pos` by the gate rebuilt with `v`; a position
out of range or a gate without parameter raises -/
theorem C12_set_parameter (c : Circuit) (pos : ℕ) (v : ℝ) :
    (∀ g, c[pos]? = some g → g.hasParameter = true → IsNamed g → ∃ g', makeGate g.label g.target g.control v = .ok g' ∧
      c.setParameter pos v = .ok (c.set pos g')) ∧
    (c.length ≤ pos → c.setParameter pos v = .error .runtimeError) ∧
    (∀ g, c[pos]? = some g → g.hasParameter = false → c.setParameter pos v = .error .runtimeError) := by
  refine ⟨?_, ?_, ?_⟩
  · intro g hg hp hn
    obtain ⟨g', hg'⟩ := named_any hn v
    refine ⟨g', hg', ?_⟩
    simp only [Circuit.setParameter, hg, hp, not_true_eq_false, if_false, hg', except_ok_bind]
    rfl
  · intro h
    simp only [Circuit.setParameter, List.getElem?_eq_none h]
  · intro g hg hp
    simp [Circuit.setParameter, hg, hp]

/-- C12 (finding): a parametrised gate made by `control_gate` is reported by `get_parameters`, but
`set_parameters` with a different value throws `invalid_argument` -/
theorem C12_cU_not_settable : ∃ u g, makeGate "Rx" 0 0 1 = .ok u ∧ makeControlGate 1 u = .ok g ∧
    Circuit.getParameters [g] = [1] ∧ (Circuit.setParameters [g] [0]).2 = .error .invalidArgument := by
  have h := makeGate_of_made (.Rx 0 1)
  have hn : normalizeAngle 1 (4 * Real.pi) = 1 := by
    have := Real.two_le_pi
    apply normalizeAngle_of_abs_le <;> norm_num <;> linarith
  rw [hn] at h
  refine ⟨_, _, h, by rw [makeControlGate, if_neg (by decide)], ?_, ?_⟩
  · simp [Circuit.getParameters, Gate.parameter]
  · simp only [Circuit.setParameters, Circuit.setParametersLoop, Gate.parameter, Option.map_some,
      List.getElem?_cons_zero]
    rw [if_pos (by norm_num)]
    have : makeGate "cU" 0 1 0 = .error .invalidArgument := by
      rcases hm : makeGate "cU" 0 1 0 with e | x
      · rw [makeGate_error hm]
      · exfalso
        rcases made_name (made_of_makeGate hm) with h | h
        · exact absurd h.2 (by decide)
        · exact absurd h.2 (by decide)
    rw [this]

/-- C12 (finding): a failing `set_parameters` is not atomic: here the first gate has already been changed -/
theorem C12_not_atomic : ∃ g g', makeGate "Rz" 0 0 0 = .ok g ∧ makeGate "Rz" 0 0 1 = .ok g' ∧ g.parameter ≠ g'.parameter ∧
    Circuit.setParameters [g] [1, 1] = ([g'], .error .runtimeError) := by
  have h := makeGate_of_made (.Rz 0 0)
  have h' := makeGate_of_made (.Rz 0 1)
  have hp := Real.two_le_pi
  have hn : normalizeAngle 1 (4 * Real.pi) = 1 := by
    apply normalizeAngle_of_abs_le <;> norm_num <;> linarith
  have hn0 : normalizeAngle 0 (4 * Real.pi) = 0 := by
    apply normalizeAngle_of_abs_le <;> norm_num <;> linarith
  rw [hn] at h'
  rw [hn0] at h
  refine ⟨_, _, h, h', by simp [Gate.parameter], ?_⟩
  simp only [Circuit.setParameters, Circuit.setParametersLoop, Gate.parameter, Option.map_some,
      List.getElem?_cons_zero]
  rw [if_pos (by norm_num), h']
  simp

/-- hypotheses of C12 are met by a circuit with an `H` and an `Rz(1)` gate -/
example : ∃ g h, makeGate "H" 0 0 0 = .ok g ∧ makeGate "Rz" 1 1 1 = .ok h ∧
    (∀ x ∈ [g, h], x.hasParameter = true → ApiGate x ∧ x.label ≠ "cU" ∧ x.label ≠ "adj(cU)") ∧
    ([g, h].filter (·.hasParameter)).length = 1 := by
  have h1 := makeGate_of_made (.H 0 0)
  have h2 := makeGate_of_made (.Rz 1 1)
  refine ⟨_, _, h1, h2, ?_, by simp [Gate.hasParameter]⟩
  intro x hx _
  simp only [List.mem_cons, List.not_mem_nil, or_false] at hx
  rcases hx with rfl | rfl
  · exact ⟨.make h1, by decide, by decide⟩
  · exact ⟨.make h2, by decide, by decide⟩

/-! ### C13 (circuits) -/

theorem numQubits_fold (c : Circuit) : ∀ m n : ℕ,
    c.foldl (fun m g => max m (max (g.target + 1) (g.control + 1))) m ≤ n ↔ m ≤ n ∧ c.Fits n := by
  induction c with
  | nil => intro m n; simp [Circuit.Fits]
  | cons g c ih =>
    intro m n
    rw [List.foldl_cons, ih]
    simp only [Circuit.Fits, List.mem_cons, forall_eq_or_imp]
    constructor
    · rintro ⟨h1, h2⟩; exact ⟨by omega, ⟨by omega, by omega⟩, h2⟩
    · rintro ⟨h1, ⟨h2, h3⟩, h4⟩; exact ⟨by omega, h4⟩

/-- C13: `num_qubits` of a circuit is the least `n` such that every target and control is below `n`. -/
theorem C13_circuit_num_qubits (c : Circuit) :
    (∀ g ∈ c, g.target < c.numQubits ∧ g.control < c.numQubits) ∧
    ∀ n, (∀ g ∈ c, g.target < n ∧ g.control < n) → c.numQubits ≤ n :=
  ⟨((numQubits_fold c 0 c.numQubits).1 le_rfl).2, fun n h => (numQubits_fold c 0 n).2 ⟨Nat.zero_le _, h⟩⟩

/-! ### C14 -/

/-- C14: whenever `simplify()` returns, the circuit acts as before, is not longer, uses no new qubits, and
consists of API gates. -/
theorem C14_simplify (c c' : Circuit) (hc : ∀ g ∈ c, ApiGate g) (h : c.simplify = .ok c') :
    c'.op = c.op ∧ c'.length ≤ c.length ∧ c'.numQubits ≤ c.numQubits ∧ ∀ g ∈ c', ApiGate g := by
  have h1 := simplify_inv (good_onN c.numQubits) (c := c)
    (fun g hg => ⟨hc g hg, (C13_circuit_num_qubits c).1 g hg⟩) h
  exact ⟨h1.1, h1.2.1, (C13_circuit_num_qubits c').2 _ (fun g hg => (h1.2.2 g hg).2), fun g hg => (h1.2.2 g hg).1⟩

/-- C14: `simplify()` never fails on a circuit without gates made by `control_gate`. -/
theorem C14_simplify_total (c : Circuit) (hc : ∀ g ∈ c, ApiGate g ∧ g.label ≠ "cU" ∧ g.label ≠ "adj(cU)") :
    ∃ c', c.simplify = .ok c' := by
  apply simplify_ok
  intro g hg
  obtain ⟨h1, h2, h3⟩ := hc g hg
  refine ⟨h1, ?_⟩
  rcases api_class h1 with h | ⟨hl, _⟩ | h
  · exact named_type h
  · unfold Gate.type
    rcases hl with ⟨hl, _⟩ | ⟨hl, _⟩ <;> rw [hl] <;> decide
  · exact absurd h.label (by tauto)

/-- C14: executing the simplified circuit leaves the same coefficient vector as executing the original one
(for gates the kernels execute exactly, see C08). -/
theorem C14_execution_partial (q : Computer) (c c' : Circuit) (hq : q.WF) (hf : c.Fits q.nqubit)
    (hc : ∀ g ∈ c, ApiGate g) (h : c.simplify = .ok c')
    (he : ∀ g ∈ c, ExactGate g) (he' : ∀ g ∈ c', ExactGate g) :
    ∃ q1 q2, q.applyCircuit c = .ok q1 ∧ q.applyCircuit c' = .ok q2 ∧ q1.coeff = q2.coeff := by
  obtain ⟨a1, a2, a3, a4⟩ := C14_simplify c c' hc h
  have hn := (C13_circuit_num_qubits c).2 _ hf
  obtain ⟨q1, e1, e2, e3, e4⟩ := applyCircuit_exact c hq hf he
  obtain ⟨q2, f1, f2, f3, f4⟩ := applyCircuit_exact c' hq
    (fun g hg => by have := (C13_circuit_num_qubits c').1 g hg; omega) he'
  refine ⟨q1, q2, e1, f1, ?_⟩
  apply vec_ext
  · rw [e2.len, f2.len, e3, f3]
  · show q1.psi = q2.psi
    rw [e4, f4, a1]

/-- C14 (finding): with a `control_gate` gate `simplify()` can throw `out_of_range` -/
theorem C14_cU_throws : ∃ x u v, makeGate "X" 0 0 0 = .ok x ∧ makeControlGate 1 x = .ok u ∧
    makeGate "cX" 0 1 0 = .ok v ∧ Circuit.simplify [u, v] = .error .outOfRange := by
  have h := makeGate_of_made (.X 0 0)
  have h2 := makeGate_of_made (.cX 0 1 0 (by decide))
  refine ⟨_, _, _, h, by rw [makeControlGate, if_neg (by decide)], h2, ?_⟩
  rfl

/-- two adjacent `T` gates meet the hypotheses of C14 -/
example : ∃ g, makeGate "T" 0 0 0 = .ok g ∧ ∀ x ∈ [g, g], ApiGate x ∧ x.label ≠ "cU" ∧ x.label ≠ "adj(cU)" := by
  have h := makeGate_of_made (.T 0 0)
  refine ⟨_, h, ?_⟩
  intro x hx
  simp only [List.mem_cons, List.not_mem_nil, or_false, or_self] at hx
  subst hx
  exact ⟨.make h, by decide, by decide⟩

/-! ### C15 -/

/-- C15: if `evaluate_gate_interaction` reports that two gates commute, their actions commute on every state. -/
theorem C15_interaction_sound {g1 g2 : Gate} (h1 : ApiGate g1) (h2 : ApiGate g2) {k : ℕ}
    (h : evaluateGateInteraction g1 g2 = .ok (true, k)) (ψ : St) : g1.op (g2.op ψ) = g2.op (g1.op ψ) := by
  have := interaction_sound (api_sem h1) (api_sem h2) h
  exact congrFun (congrArg DFunLike.coe this.eq) ψ

/-- C15: the call succeeds for all API gates other than `control_gate` results. -/
theorem C15_interaction_total {g1 g2 : Gate} (h1 : ApiGate g1) (h2 : ApiGate g2)
    (u1 : g1.type ≠ .Undefined) (u2 : g2.type ≠ .Undefined) : ∃ r, evaluateGateInteraction g1 g2 = .ok r :=
  ev_ok (api_sem h1) (api_sem h2) u1 u2

theorem filter_mem_comm {g1 g2 : Gate} :
    (g1.qubitSet.filter (· ∈ g2.qubitSet)).length = (g2.qubitSet.filter (· ∈ g1.qubitSet)).length := by
  unfold Gate.qubitSet
  split_ifs <;> simp only [List.filter_cons, List.filter_nil, List.mem_cons, List.not_mem_nil, or_false, decide_eq_true_eq] <;>
    split_ifs <;> first | rfl | omega

/-- C15: the commute flag does not depend on the order of the arguments. -/
theorem C15_flag_symmetric {g1 g2 : Gate} {r1 r2 : Bool × ℕ} (h1 : evaluateGateInteraction g1 g2 = .ok r1)
    (h2 : evaluateGateInteraction g2 g1 = .ok r2) : r1.1 = r2.1 := by
  by_cases h0 : (g1.qubitSet.filter (· ∈ g2.qubitSet)).length = 0
  · rw [ev_disj h0] at h1
    rw [ev_disj (filter_mem_comm ▸ h0)] at h2
    cases h1; cases h2; rfl
  have hd : ¬ Disj g1 g2 := by
    intro hd; apply h0
    rw [List.length_eq_zero_iff, List.filter_eq_nil_iff]
    intro a ha
    unfold Gate.qubitSet at ha ⊢
    unfold Disj at hd
    split_ifs at ha ⊢ <;> simp at ha ⊢ <;> omega
  have swap4 : ∀ {a b : GateType}, (a = .SWAP ∨ b = .SWAP ∨ a = .A ∨ b = .A) →
      (b = .SWAP ∨ a = .SWAP ∨ b = .A ∨ a = .A) := by tauto
  by_cases k1 : g1.target = g1.control
  · by_cases k2 : g2.target = g2.control
    · have h : g1.target = g2.target := by unfold Disj at hd; omega
      rw [ev11 k1 k2 h] at h1
      rw [ev11 k2 k1 h.symm] at h2
      by_cases hp : (isPhase1 g1.type && isPhase1 g2.type) = true
      · rw [if_pos hp] at h1
        rw [if_pos (by rwa [Bool.and_comm])] at h2
        split_ifs at h1 h2 <;> cases h1 <;> cases h2 <;> rfl
      · rw [if_neg hp] at h1
        rw [if_neg (by rwa [Bool.and_comm])] at h2
        cases h1; cases h2
        exact pairCommute_symm _ _
    · have h : g1.target = g2.target ∨ g1.target = g2.control := by unfold Disj at hd; omega
      rw [ev12 k1 k2 h] at h1
      rw [ev21 k2 k1 (by tauto)] at h2
      by_cases hn : g1.type = .SWAP ∨ g2.type = .SWAP ∨ g1.type = .A ∨ g2.type = .A
      · rw [if_pos hn] at h1; rw [if_pos (swap4 hn)] at h2; cases h1; cases h2; rfl
      rw [if_neg hn] at h1; rw [if_neg (fun h => hn (swap4 h)), h1] at h2
      cases h2; rfl
  · by_cases k2 : g2.target = g2.control
    · have h : g2.target = g1.target ∨ g2.target = g1.control := by unfold Disj at hd; omega
      rw [ev12 k2 k1 h] at h2
      rw [ev21 k1 k2 (by tauto)] at h1
      by_cases hn : g1.type = .SWAP ∨ g2.type = .SWAP ∨ g1.type = .A ∨ g2.type = .A
      · rw [if_pos hn] at h1; rw [if_pos (swap4 hn)] at h2; cases h1; cases h2; rfl
      rw [if_neg hn] at h1; rw [if_neg (fun h => hn (swap4 h)), h1] at h2
      cases h2; rfl
    · have pc : ∀ {x y : Except Exc GateType} {f : GateType → GateType → ℕ} {f' : GateType → GateType → ℕ},
          (do let a ← x; let b ← y; pure (pairCommute a b, f a b) : Except Exc (Bool × ℕ)) = .ok r1 →
          (do let a ← y; let b ← x; pure (pairCommute a b, f' a b) : Except Exc (Bool × ℕ)) = .ok r2 → r1.1 = r2.1 := by
        intro x y f f' a b
        rcases x with e | x
        · cases a
        rcases y with e | y
        · cases a
        simp only [except_ok_bind, pure, Except.pure, Except.ok.injEq] at a b
        subst a; subst b
        exact pairCommute_symm _ _
      rcases common22 k1 k2 with h | ⟨hc, h⟩ | ⟨hc, h⟩
      · exact absurd h h0
      · rw [ev22_1 k1 k2 hc] at h1
        rw [ev22_1 k2 k1 (filter_mem_comm ▸ hc)] at h2
        by_cases hn : g1.type = .SWAP ∨ g2.type = .SWAP ∨ g1.type = .A ∨ g2.type = .A
        · rw [if_pos hn] at h1; rw [if_pos (swap4 hn)] at h2; cases h1; cases h2; rfl
        rw [if_neg hn] at h1; rw [if_neg (fun h => hn (swap4 h))] at h2
        rcases h with h | h | h | h
        · rw [if_pos h.1] at h1; rw [if_pos h.1.symm] at h2; cases h1; cases h2; rfl
        · rw [if_neg h.2.1, if_pos h.1] at h1; rw [if_neg (Ne.symm h.2.1), if_pos h.1.symm] at h2
          exact pc (f := fun _ _ => 0) (f' := fun _ _ => 0) h1 h2
        · rw [if_neg h.2.2.1, if_neg h.2.2.2, if_pos h.1] at h1
          rw [if_neg (Ne.symm h.2.2.1), if_neg (Ne.symm h.2.2.2), if_neg (Ne.symm h.2.1), h1] at h2
          cases h2; rfl
        · rw [if_neg h.2.2.1, if_neg h.2.2.2, if_neg h.2.1] at h1
          rw [if_neg (Ne.symm h.2.2.1), if_neg (Ne.symm h.2.2.2), if_pos h.1.symm, h1] at h2
          cases h2; rfl
      · rw [ev22_2 k1 k2 hc] at h1
        rw [ev22_2 k2 k1 (filter_mem_comm ▸ hc)] at h2
        by_cases hp : (isSym2 g1.type && isSym2 g2.type) = true
        · rw [if_pos hp] at h1; rw [if_pos (by rwa [Bool.and_comm])] at h2; cases h1; cases h2; rfl
        rw [if_neg hp] at h1; rw [if_neg (by rwa [Bool.and_comm])] at h2
        by_cases hS : g1.type = .SWAP ∨ g2.type = .SWAP
        · rw [if_pos hS] at h1; rw [if_pos hS.symm] at h2; cases h1; cases h2; rfl
        rw [if_neg hS] at h1; rw [if_neg (fun h => hS h.symm)] at h2
        by_cases hA : g1.type = .A ∨ g2.type = .A
        · rw [if_pos hA, Bool.or_comm] at h1; rw [if_pos hA.symm, h1] at h2; cases h2; rfl
        rw [if_neg hA] at h1; rw [if_neg (fun h => hA h.symm)] at h2
        by_cases ht : g1.target = g2.target
        · rw [if_pos ht] at h1; rw [if_pos ht.symm] at h2
          exact pc (f := fun x y => (if g1.type = g2.type then 1 else 0) + 4 * (if isVadjV x y then 1 else 0))
            (f' := fun x y => (if g2.type = g1.type then 1 else 0) + 4 * (if isVadjV x y then 1 else 0)) h1 h2
        · rw [if_neg ht] at h1; rw [if_neg (Ne.symm ht)] at h2
          rcases hx : ctrlTo1 g1.type with e | x
          · rw [hx] at h1; cases h1
          rcases hy : ctrlTo1 g2.type with e | y
          · rw [hy] at h2; cases h2
          rw [hx, hy, except_ok_bind, except_ok_bind] at h1
          rw [hx, hy, except_ok_bind, except_ok_bind] at h2
          simp only [pure, Except.pure] at h1 h2
          cases hdx : isDiag1 x <;> cases hdy : isDiag1 y <;>
            simp only [hdx, hdy, if_true, if_false, Bool.false_eq_true, Except.ok.injEq] at h1 h2 <;>
            subst h1 <;> subst h2 <;> rfl

/-- overlapping `cX` gates with the same control are reported (and proved) to commute -/
example : ∃ g h, makeGate "cX" 1 0 0 = .ok g ∧ makeGate "cX" 2 0 0 = .ok h ∧
    evaluateGateInteraction g h = .ok (true, 0) :=
  ⟨_, _, makeGate_of_made (.cX 1 0 0 (by decide)), makeGate_of_made (.cX 2 0 0 (by decide)), by rfl⟩

/-! ### C16 -/

def isCnotLabel (l : String) : Bool := l = "CNOT" ∨ l = "cX" ∨ l = "aCNOT" ∨ l = "acX"
def isTripleLabel (l : String) : Bool := l = "A" ∨ l = "SWAP"

theorem cnots_fold (c : Circuit) (n : ℤ) :
    c.foldl (fun n g =>
      if g.label = "CNOT" ∨ g.label = "cX" ∨ g.label = "aCNOT" ∨ g.label = "acX" then n + 1
      else if g.label = "A" ∨ g.label = "SWAP" then n + 3
      else n) n = n + (c.filter (fun g => isCnotLabel g.label)).length
        + 3 * (c.filter (fun g => isTripleLabel g.label)).length := by
  induction c generalizing n with
  | nil => simp
  | cons g c ih =>
    rw [List.foldl_cons, ih]
    have hex : isCnotLabel g.label = true → isTripleLabel g.label = false := by
      simp only [isCnotLabel, isTripleLabel, decide_eq_true_eq, decide_eq_false_iff_not]
      rintro (h | h | h | h) <;> rw [h] <;> decide
    by_cases h1 : isCnotLabel g.label = true
    · have h1' : (g.label = "CNOT" ∨ g.label = "cX" ∨ g.label = "aCNOT" ∨ g.label = "acX") := by
        simpa [isCnotLabel] using h1
      rw [if_pos h1']
      simp [h1, hex h1]; ring
    · have h1' : ¬ (g.label = "CNOT" ∨ g.label = "cX" ∨ g.label = "aCNOT" ∨ g.label = "acX") := by
        simpa [isCnotLabel] using h1
      rw [if_neg h1']
      by_cases h2 : isTripleLabel g.label = true
      · have h2' : g.label = "A" ∨ g.label = "SWAP" := by simpa [isTripleLabel] using h2
        rw [if_pos h2']
        simp [h1, h2]; ring
      · have h2' : ¬ (g.label = "A" ∨ g.label = "SWAP") := by simpa [isTripleLabel] using h2
        rw [if_neg h2']
        simp [h1, h2]

/-- C16: `get_num_cnots` is the number of (anti-)CNOT gates plus three times the number of `A` and `SWAP`
gates. -/
theorem C16_count (c : Circuit) : c.getNumCnots =
    (c.filter (fun g => isCnotLabel g.label)).length + 3 * (c.filter (fun g => isTripleLabel g.label)).length := by
  unfold Circuit.getNumCnots
  rw [cnots_fold]; ring

/-- C16: additive under concatenation -/
theorem C16_additive (c d : Circuit) : (c.addCircuit d).getNumCnots = c.getNumCnots + d.getNumCnots := by
  rw [addCircuit_eq, C16_count, C16_count, C16_count]
  simp only [List.filter_append, List.length_append]
  push_cast; ring

theorem made_cnot_selfadj {ty : String} {t c : ℕ} {θ : ℝ} {g : Gate} (h : Made ty t c θ g)
    (hty : isCnotLabel ty = true ∨ isTripleLabel ty = true) (hp : g.param = none) : g.mat.conjTranspose = g.mat := by
  cases h <;> first | (cases hp; done) | (exfalso; revert hty; decide) | skip
  all_goals
    ext i j
    fin_cases i <;> fin_cases j <;> simp [matC, matAC, matSWAP]

theorem label_adjoint {g : Gate} (h : ApiGate g) : isCnotLabel g.adjoint.label = isCnotLabel g.label ∧
    isTripleLabel g.adjoint.label = isTripleLabel g.label := by
  rcases api_class h with ⟨θ, h⟩ | h | h
  · have hm := made_of_makeGate h
    rcases hp : g.param with _ | ⟨p, m⟩
    · by_cases hw : isCnotLabel g.label = true ∨ isTripleLabel g.label = true
      · rw [selfAdjoint_of_conj hp (made_cnot_selfadj hm hw hp)]; exact ⟨rfl, rfl⟩
      · push Not at hw
        rw [Ne, Ne, Bool.not_eq_true, Bool.not_eq_true] at hw
        rw [hw.1, hw.2, adjoint_param_none hp]
        have hn := made_name hm
        have key : ∀ l ∈ names1 ++ names2, isCnotLabel (adjLabel l) = false ∧ isTripleLabel (adjLabel l) = false := by decide
        split_ifs
        · exact hw
        · exact (by decide : isCnotLabel "R" = false ∧ isTripleLabel "R" = false)
        · exact (by decide : isCnotLabel "R" = false ∧ isTripleLabel "R" = false)
        · exact key _ (by rw [List.mem_append]; tauto)
    · rw [adjoint_param_some hp]; exact ⟨rfl, rfl⟩
  · obtain ⟨hl, u, hu, ha, _⟩ := h
    rw [ha, (makeGate_spec hu).1]
    rcases hl with ⟨hl, ht⟩ | ⟨hl, ht⟩
    · rw [hl, if_pos ht]; decide
    · rw [hl, if_neg ht]; decide
  · have h2 := isCU_adjoint h (api_clean ‹ApiGate g›.any)
    rcases h.label with a | a <;> rcases h2.label with b | b <;> rw [a, b] <;> decide

/-- C16: invariant under `adjoint()` -/
theorem C16_adjoint (c : Circuit) (hc : ∀ g ∈ c, ApiGate g) : c.adjoint.getNumCnots = c.getNumCnots := by
  rw [C16_count, C16_count]
  unfold Circuit.adjoint
  rw [List.filter_reverse, List.filter_reverse, List.length_reverse, List.length_reverse, List.filter_map, List.filter_map,
    List.length_map, List.length_map]
  congr 2
  · congr 1
    apply List.filter_congr
    intro g hg; exact (label_adjoint (hc g hg)).1
  · congr 2
    apply List.filter_congr
    intro g hg; exact (label_adjoint (hc g hg)).2

/-! ### C17 -/

/-- C17: gate equality means same label, target and control, and parameters (if both gates have one) that
differ by less than 1e-12. -/
theorem C17_gate_eq_iff (g h : Gate) : g.beq h = true ↔
    g.label = h.label ∧ g.target = h.target ∧ g.control = h.control ∧
    ∀ p q, g.parameter = some p → h.parameter = some q → |p - q| < 1e-12 := by
  unfold Gate.beq
  by_cases h1 : g.label = h.label
  swap; · simp [h1]
  by_cases h2 : g.target = h.target
  swap; · simp [h1, h2]
  by_cases h3 : g.control = h.control
  swap; · simp [h1, h2, h3]
  simp only [h1, h2, h3, ne_eq, not_true_eq_false, if_false, true_and]
  rcases g.parameter with _ | p <;> rcases h.parameter with _ | q <;> simp

/-- C17: reflexive and symmetric, for gates and for circuits -/
theorem C17_refl_symm (g h : Gate) (c d : Circuit) :
    g.beq g = true ∧ (g.beq h = h.beq g) ∧ c.beq c = true ∧ c.beq d = d.beq c := by
  have r : ∀ g : Gate, g.beq g = true := by
    intro g
    rw [C17_gate_eq_iff]
    refine ⟨rfl, rfl, rfl, ?_⟩
    intro p q hp hq
    rw [hp] at hq; cases hq; norm_num
  have s1 : ∀ g h : Gate, g.beq h = true → h.beq g = true := by
    intro g h
    rw [C17_gate_eq_iff, C17_gate_eq_iff]
    rintro ⟨a, b, c, d⟩
    exact ⟨a.symm, b.symm, c.symm, fun p q hp hq => by rw [abs_sub_comm]; exact d q p hq hp⟩
  have s : ∀ g h : Gate, g.beq h = h.beq g := by
    intro g h
    rw [Bool.eq_iff_iff]; exact ⟨s1 g h, s1 h g⟩
  refine ⟨r g, s g h, ?_, ?_⟩
  · induction c with
    | nil => rfl
    | cons x c ih => simp [Circuit.beq, r x, ih]
  · induction c generalizing d with
    | nil => cases d <;> rfl
    | cons x c ih =>
      cases d with
      | nil => rfl
      | cons y d => simp only [Circuit.beq]; rw [s x y, ih d]

/-- C17: circuit equality is gate-wise -/
theorem C17_circuit_eq_iff (c d : Circuit) : c.beq d = true ↔
    c.length = d.length ∧ ∀ (i : ℕ) (g h : Gate), c[i]? = some g → d[i]? = some h → g.beq h = true := by
  induction c generalizing d with
  | nil => cases d <;> simp [Circuit.beq]
  | cons x c ih =>
    cases d with
    | nil => simp [Circuit.beq]
    | cons y d =>
      simp only [Circuit.beq, Bool.and_eq_true, ih d, List.length_cons, Nat.add_right_cancel_iff]
      constructor
      · rintro ⟨h1, h2, h3⟩
        refine ⟨h2, ?_⟩
        intro i g h hg hh
        cases i with
        | zero => simp at hg hh; subst hg; subst hh; exact h1
        | succ i => simp at hg hh; exact h3 i g h hg hh
      · rintro ⟨h2, h3⟩
        exact ⟨h3 0 x y rfl rfl, h2, fun i g h hg hh => h3 (i + 1) g h (by simpa using hg) (by simpa using hh)⟩

theorem made_det {ty : String} {t c : ℕ} {θ θ' : ℝ} {g h : Gate} (hg : Made ty t c θ g) (hp : g.param = none)
    (hh : makeGate ty t c θ' = .ok h) : h = g := by
  cases hg <;> first | (cases hp; done) | skip
  all_goals
    first
      | (have := makeGate_of_made (.X t θ'); rw [hh] at this; cases this; rfl)
      | (have := makeGate_of_made (.Y t θ'); rw [hh] at this; cases this; rfl)
      | (have := makeGate_of_made (.Z t θ'); rw [hh] at this; cases this; rfl)
      | (have := makeGate_of_made (.H t θ'); rw [hh] at this; cases this; rfl)
      | (have := makeGate_of_made (.V t θ'); rw [hh] at this; cases this; rfl)
      | (have := makeGate_of_made (.S t θ'); rw [hh] at this; cases this; rfl)
      | (have := makeGate_of_made (.T t θ'); rw [hh] at this; cases this; rfl)
      | (have := makeGate_of_made (.I t θ'); rw [hh] at this; cases this; rfl)
      | (have := makeGate_of_made (.cX t c θ' (by assumption)); rw [hh] at this; cases this; rfl)
      | (have := makeGate_of_made (.CNOT t c θ' (by assumption)); rw [hh] at this; cases this; rfl)
      | (have := makeGate_of_made (.acX t c θ' (by assumption)); rw [hh] at this; cases this; rfl)
      | (have := makeGate_of_made (.aCNOT t c θ' (by assumption)); rw [hh] at this; cases this; rfl)
      | (have := makeGate_of_made (.cY t c θ' (by assumption)); rw [hh] at this; cases this; rfl)
      | (have := makeGate_of_made (.cZ t c θ' (by assumption)); rw [hh] at this; cases this; rfl)
      | (have := makeGate_of_made (.cV t c θ' (by assumption)); rw [hh] at this; cases this; rfl)
      | (have := makeGate_of_made (.SWAP t c θ' (by assumption)); rw [hh] at this; cases this; rfl)

/-- C17: equal parameter-free gates made by `qforte.gate` are identical, so have the same matrix -/
theorem C17_equal_matrices {ty ty' : String} {t c t' c' : ℕ} {θ θ' : ℝ} {g h : Gate}
    (hg : makeGate ty t c θ = .ok g) (hh : makeGate ty' t' c' θ' = .ok h) (hp : g.param = none)
    (he : g.beq h = true) : g = h := by
  rw [C17_gate_eq_iff] at he
  obtain ⟨e1, e2, e3, _⟩ := he
  obtain ⟨a1, a2, a3, _⟩ := makeGate_spec hg
  obtain ⟨b1, b2, b3, _⟩ := makeGate_spec hh
  have : ty' = ty := by rw [← a1, ← b1, e1]
  subst this
  have : t' = t := by rw [← a2, ← b2, e2]
  subst this
  have : c' = c := by rw [← a3, ← b3, e3]
  subst this
  exact (made_det (made_of_makeGate hg) hp hh).symm

/-- C17 (finding): `==` does not look at the matrix: controlled-X and controlled-Z built with `control_gate`
compare equal -/
theorem C17_eq_ignores_matrix : ∃ x z u v, makeGate "X" 0 0 0 = .ok x ∧ makeGate "Z" 0 0 0 = .ok z ∧
    makeControlGate 1 x = .ok u ∧ makeControlGate 1 z = .ok v ∧ u.beq v = true ∧ u.mat ≠ v.mat := by
  refine ⟨_, _, _, _, makeGate_of_made (.X 0 0), makeGate_of_made (.Z 0 0), by rw [makeControlGate, if_neg (by decide)],
    by rw [makeControlGate, if_neg (by decide)], ?_, ?_⟩
  · rw [C17_gate_eq_iff]
    simp [Gate.parameter]
  · intro h
    have := congrFun (congrFun h 2) 2
    simp [matC, mat1] at this

/-- C17 (finding): `==` is not transitive (tolerance comparison) -/
theorem C17_not_transitive : ∃ g1 g2 g3, ApiGate g1 ∧ ApiGate g2 ∧ ApiGate g3 ∧ g1.beq g2 = true ∧ g2.beq g3 = true ∧
    g1.beq g3 = false := by
  have hp := Real.two_le_pi
  have hn : ∀ x : ℝ, |x| ≤ 1 → normalizeAngle x (4 * Real.pi) = x := by
    intro x hx
    apply normalizeAngle_of_abs_le <;> linarith
  have e1 := hn 0 (by norm_num)
  have e2 := hn 6e-13 (by norm_num)
  have e3 := hn 12e-13 (by norm_num)
  refine ⟨_, _, _, .make (makeGate_of_made (.Rz 0 0)), .make (makeGate_of_made (.Rz 0 6e-13)),
    .make (makeGate_of_made (.Rz 0 12e-13)), ?_, ?_, ?_⟩
  · rw [C17_gate_eq_iff]; simp only [Gate.parameter, Option.map_some, e1, e2]; refine ⟨trivial, trivial, trivial, ?_⟩
    rintro p q ⟨⟩ ⟨⟩; norm_num
  · rw [C17_gate_eq_iff]; simp only [Gate.parameter, Option.map_some, e2, e3]; refine ⟨trivial, trivial, trivial, ?_⟩
    rintro p q ⟨⟩ ⟨⟩; norm_num
  · rw [Bool.eq_false_iff, Ne, C17_gate_eq_iff]
    rintro ⟨_, _, _, h⟩
    have := h 0 12e-13 (by simp [Gate.parameter, e1]) (by simp [Gate.parameter, e3])
    norm_num at this

end QF
