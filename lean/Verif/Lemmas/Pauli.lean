import Verif.Spec.Pauli
import Verif.Lemmas.Class

namespace QF

theorem opX_sq (t : ℕ) : opX t * opX t = 1 := by
  rw [opX, op1_mul, ← op1_one t]; congr 1; funext a b
  cases a <;> cases b <;> simp [M2.mul, mX, M2.one]
theorem opY_sq (t : ℕ) : opY t * opY t = 1 := by
  rw [opY, op1_mul, ← op1_one t]; congr 1; funext a b
  cases a <;> cases b <;> simp [M2.mul, mY, M2.one]
theorem opZ_sq (t : ℕ) : opZ t * opZ t = 1 := by
  rw [opZ, op1_mul, ← op1_one t]; congr 1; funext a b
  cases a <;> cases b <;> simp [M2.mul, mZ, M2.one]

theorem opX_opY (t : ℕ) : opX t * opY t = Complex.I • opZ t := by
  rw [opX, opY, opZ, op1_mul, op1_smul]; congr 1; funext a b
  cases a <;> cases b <;> simp [M2.mul, mX, mY, mZ]
theorem opY_opX (t : ℕ) : opY t * opX t = (-Complex.I) • opZ t := by
  rw [opX, opY, opZ, op1_mul, op1_smul]; congr 1; funext a b
  cases a <;> cases b <;> simp [M2.mul, mX, mY, mZ]
theorem opY_opZ (t : ℕ) : opY t * opZ t = Complex.I • opX t := by
  rw [opX, opY, opZ, op1_mul, op1_smul]; congr 1; funext a b
  cases a <;> cases b <;> simp [M2.mul, mX, mY, mZ]
theorem opZ_opY (t : ℕ) : opZ t * opY t = (-Complex.I) • opX t := by
  rw [opX, opY, opZ, op1_mul, op1_smul]; congr 1; funext a b
  cases a <;> cases b <;> simp [M2.mul, mX, mY, mZ]
theorem opZ_opX (t : ℕ) : opZ t * opX t = Complex.I • opY t := by
  rw [opX, opY, opZ, op1_mul, op1_smul]; congr 1; funext a b
  cases a <;> cases b <;> simp [M2.mul, mX, mY, mZ]
theorem opX_opZ (t : ℕ) : opX t * opZ t = (-Complex.I) • opY t := by
  rw [opX, opY, opZ, op1_mul, op1_smul]; congr 1; funext a b
  cases a <;> cases b <;> simp [M2.mul, mX, mY, mZ]

@[simp] theorem pauliL_X (t : ℕ) : pauliL "X" t = opX t := rfl
@[simp] theorem pauliL_Y (t : ℕ) : pauliL "Y" t = opY t := by simp [pauliL]
@[simp] theorem pauliL_Z (t : ℕ) : pauliL "Z" t = opZ t := by simp [pauliL]
@[simp] theorem pauliL_I (t : ℕ) : pauliL "I" t = 1 := by simp [pauliL]

theorem made_pauli_ctrl {ty : String} {t c : ℕ} {θ : ℝ} {g : Gate} (h : Made ty t c θ g) (hty : IsXYZ ty) :
    makeGate g.label g.target g.target 0 = .ok g := by
  have hty' : ty = "X" ∨ ty = "Y" ∨ ty = "Z" := hty
  clear hty
  cases h <;> first | (exfalso; revert hty'; decide) | skip
  · exact makeGate_of_made (.X t 0)
  · exact makeGate_of_made (.Y t 0)
  · exact makeGate_of_made (.Z t 0)

theorem pauliGate_of_api {g : Gate} (h : ApiGate g) (hl : IsXYZ g.label) : PauliGate g := by
  refine ⟨hl, ?_⟩
  rcases api_class h with ⟨θ, h⟩ | h | h
  · exact made_pauli_ctrl (made_of_makeGate h) hl
  · exfalso
    rcases h.label with ⟨h, _⟩ | ⟨h, _⟩ <;> rw [h] at hl <;> exact absurd hl (by unfold IsXYZ; decide)
  · exfalso
    rcases h.label with h | h <;> rw [h] at hl <;> exact absurd hl (by unfold IsXYZ; decide)

theorem PauliGate.control {g : Gate} (h : PauliGate g) : g.control = g.target := (makeGate_spec h.make).2.2.1

theorem PauliGate.param {g : Gate} (h : PauliGate g) : g.param = none := by
  have hm := made_of_makeGate h.make
  have hl : g.label = "X" ∨ g.label = "Y" ∨ g.label = "Z" := h.letter
  revert hl hm
  generalize g.label = l
  intro hm hl
  generalize g.target = t at hm
  cases hm <;> first | (exfalso; revert hl; decide) | rfl

theorem make_pauli_op {s : String} {t : ℕ} {g : Gate} (hs : IsXYZ s) (h : makeGate s t t 0 = .ok g) :
    g.op = pauliL s t := by
  have := (makeGate_spec h).2.2.2
  rcases hs with rfl | rfl | rfl <;> simpa [stdGate] using this.symm

theorem PauliGate.op {g : Gate} (h : PauliGate g) : g.op = pauliL g.label g.target := make_pauli_op h.letter h.make

theorem make_pauli {s : String} (hs : IsXYZ s) (t : ℕ) : ∃ g, makeGate s t t 0 = .ok g ∧ PauliGate g ∧ g.target = t ∧
    g.label = s := by
  rcases hs with rfl | rfl | rfl
  · have := makeGate_of_made (.X t 0)
    exact ⟨_, this, ⟨.inl rfl, this⟩, rfl, rfl⟩
  · have := makeGate_of_made (.Y t 0)
    exact ⟨_, this, ⟨.inr (.inl rfl), this⟩, rfl, rfl⟩
  · have := makeGate_of_made (.Z t 0)
    exact ⟨_, this, ⟨.inr (.inr rfl), this⟩, rfl, rfl⟩

theorem pauliL_comm {s s' : String} {t t' : ℕ} (h : t ≠ t') : Commute (pauliL s t) (pauliL s' t') := by
  unfold pauliL
  split_ifs <;> first | exact op1_comm h _ _ | exact Commute.one_left _ | exact Commute.one_right _ |
    exact Commute.zero_left _ | exact Commute.zero_right _

theorem pauliL_sq {s : String} (hs : IsIXYZ s) (t : ℕ) : pauliL s t * pauliL s t = 1 := by
  rcases hs with rfl | rfl | rfl | rfl
  · simp
  · rw [pauliL_X]; exact opX_sq t
  · rw [pauliL_Y]; exact opY_sq t
  · rw [pauliL_Z]; exact opZ_sq t

/-- the multiplication table used by `canonicalize_pauli_circuit` -/
theorem pauliMap_spec {a b : String} (ha : IsIXYZ a) (hb : IsXYZ b) (t : ℕ) :
    pauliL a t * pauliL b t = (Circuit.pauliMap a b).1 • pauliL (Circuit.pauliMap a b).2 t ∧
    IsIXYZ (Circuit.pauliMap a b).2 ∧
    ((Circuit.pauliMap a b).1 = 1 ∨ (Circuit.pauliMap a b).1 = -1 ∨ (Circuit.pauliMap a b).1 = Complex.I ∨
      (Circuit.pauliMap a b).1 = -Complex.I) := by
  rcases ha with rfl | rfl | rfl | rfl <;> rcases hb with rfl | rfl | rfl <;>
    simp [Circuit.pauliMap, IsIXYZ, IsXYZ, opX_sq, opY_sq, opZ_sq, opX_opY, opY_opX, opX_opZ, opZ_opX, opY_opZ, opZ_opY]

theorem IsUnit4.mul {z w : ℂ} (hz : IsUnit4 z) (hw : IsUnit4 w) : IsUnit4 (z * w) := by
  have hI := Complex.I_mul_I
  rcases hz with rfl | rfl | rfl | rfl <;> rcases hw with rfl | rfl | rfl | rfl <;> simp [IsUnit4]

theorem IsUnit4.conj_mul {z : ℂ} (h : IsUnit4 z) : (starRingEnd ℂ) z * z = 1 := by
  rcases h with rfl | rfl | rfl | rfl <;> simp

theorem IsUnit4.ne_zero {z : ℂ} (h : IsUnit4 z) : z ≠ 0 := by
  intro h0; have := h.conj_mul; rw [h0] at this; simp at this

@[simp] theorem Circuit.opLR_nil : Circuit.opLR [] = 1 := rfl
@[simp] theorem Circuit.opLR_cons (g : Gate) (c : Circuit) : Circuit.opLR (g :: c) = g.op * Circuit.opLR c := by
  simp [Circuit.opLR]
theorem Circuit.opLR_append (c d : Circuit) : Circuit.opLR (c ++ d) = Circuit.opLR c * Circuit.opLR d := by
  simp [Circuit.opLR]

theorem Circuit.op_eq_reverse (c : Circuit) : Circuit.op c = Circuit.opLR c.reverse := by
  induction c with
  | nil => rfl
  | cons g c ih => rw [Circuit.op_cons, ih, List.reverse_cons, Circuit.opLR_append]; simp

theorem isPauli_iff {c : Circuit} : c.isPauli = true ↔ ∀ g ∈ c, IsXYZ g.label := by
  simp [Circuit.isPauli, IsXYZ]

/-- canonical strings in terms of `PauliGate` -/
theorem canonical_iff {c : Circuit} : c.Canonical ↔ (∀ g ∈ c, PauliGate g) ∧ c.Pairwise (fun a b => a.target < b.target) :=
  ⟨fun h => ⟨fun g hg => ⟨(h.gates g hg).1, (h.gates g hg).2⟩, h.sorted⟩,
   fun h => ⟨fun g hg => ⟨(h.1 g hg).letter, (h.1 g hg).make⟩, h.2⟩⟩

theorem sort_op {c : Circuit} (hc : ∀ g ∈ c, PauliGate g) :
    Circuit.opLR (c.insertionSort (fun a b => a.target ≤ b.target)) = Circuit.opLR c := by
  have key : ∀ (a : Gate) (l : Circuit), PauliGate a → (∀ g ∈ l, PauliGate g) →
      Circuit.opLR (l.orderedInsert (fun a b => a.target ≤ b.target) a) = a.op * Circuit.opLR l := by
    intro a l ha
    induction l with
    | nil => intro _; simp
    | cons b l ih =>
      intro hl
      rw [List.orderedInsert_cons]
      split_ifs with h
      · simp
      · rw [Circuit.opLR_cons, ih (fun g hg => hl g (by simp [hg])), Circuit.opLR_cons]
        have hb := hl b (by simp)
        have : Commute b.op a.op := by
          rw [hb.op, ha.op]; exact pauliL_comm (by omega)
        rw [← mul_assoc, this.eq, mul_assoc]
  induction c with
  | nil => rfl
  | cons a c ih =>
    have hc' : ∀ g ∈ c, PauliGate g := fun g hg => hc g (by simp [hg])
    rw [List.insertionSort_cons, key a _ (hc a (by simp)), ih hc', Circuit.opLR_cons]
    intro g hg
    exact hc' g ((List.mem_insertionSort _).1 hg)

theorem canonLoop_ok : ∀ (c : Circuit) (cur : Option String), (∀ g ∈ c, PauliGate g) →
    c.Pairwise (fun a b => a.target ≤ b.target) → (∀ s, cur = some s → IsIXYZ s) →
    ∃ k c', Circuit.canonLoop c cur = .ok (k, c') ∧ c'.Canonical ∧ IsUnit4 k ∧
      (∀ g ∈ c', ∃ h ∈ c, h.target = g.target) ∧
      k • Circuit.opLR c' = (match c with
        | [] => 1
        | g :: gs => pauliL (cur.getD g.label) g.target * Circuit.opLR gs) := by
  intro c
  induction c with
  | nil =>
    intro cur _ _ _
    exact ⟨1, [], rfl, ⟨by simp, by simp⟩, .inl rfl, by simp, by simp⟩
  | cons g c ih =>
    intro cur hc hs hcur
    have hg := hc g (by simp)
    have hcs : IsIXYZ (cur.getD g.label) := by
      rcases cur with _ | s
      · exact .inr hg.letter
      · exact hcur s rfl
    cases c with
    | nil =>
      unfold Circuit.canonLoop
      by_cases h : cur.getD g.label = "I"
      · refine ⟨1, [], by simp [h], ⟨by simp, by simp⟩, .inl rfl, by simp, by simp [h]⟩
      · have h' : IsXYZ (cur.getD g.label) := by rcases hcs with h1 | h1; exact absurd h1 h; exact h1
        obtain ⟨x, hx, px, tx, lx⟩ := make_pauli h' g.target
        refine ⟨1, [x], by simp [h, hx], ?_, .inl rfl, by simp [tx], ?_⟩
        · rw [canonical_iff]; exact ⟨by simpa using px, by simp⟩
        · simp [px.op, tx, lx]
    | cons h gs =>
      have hc' : ∀ g ∈ h :: gs, PauliGate g := fun x hx => hc x (by simp only [List.mem_cons] at hx ⊢; tauto)
      have hs' := (List.pairwise_cons.1 hs).2
      unfold Circuit.canonLoop
      by_cases ht : g.target = h.target
      · simp only [ht, if_true]
        obtain ⟨m1, m2, m3⟩ := pauliMap_spec hcs (hc' h (by simp)).letter h.target
        obtain ⟨k, c', e1, e2, e3, e4, e5⟩ := ih (some (Circuit.pauliMap (cur.getD g.label) h.label).2) hc' hs'
          (fun s hs => by cases hs; exact m2)
        refine ⟨(Circuit.pauliMap (cur.getD g.label) h.label).1 * k, c', ?_, e2, IsUnit4.mul m3 e3, ?_, ?_⟩
        · rw [e1]; rfl
        · intro x hx
          obtain ⟨y, hy, hy2⟩ := e4 x hx
          exact ⟨y, by simp only [List.mem_cons] at hy ⊢; tauto, hy2⟩
        · rw [mul_smul, e5, Circuit.opLR_cons, (hc' h (by simp)).op, ← mul_assoc, m1]
          simp
      · simp only [ht, if_false]
        obtain ⟨k, c', e1, e2, e3, e4, e5⟩ := ih none hc' hs' (fun s hs => by cases hs)
        have hlt : ∀ x ∈ c', g.target < x.target := by
          intro x hx
          obtain ⟨y, hy, hy2⟩ := e4 x hx
          rw [← hy2]
          have h1 : g.target ≤ h.target := (List.pairwise_cons.1 hs).1 h (by simp)
          have h2 : h.target ≤ y.target := by
            rcases List.mem_cons.1 hy with rfl | hy
            · exact le_rfl
            · exact (List.pairwise_cons.1 hs').1 y hy
          omega
        have e5' : k • Circuit.opLR c' = Circuit.opLR (h :: gs) := by
          rw [e5, Circuit.opLR_cons, (hc' h (by simp)).op]; simp
        by_cases hI : cur.getD g.label = "I"
        · refine ⟨k, c', by rw [e1]; simp [hI], e2, e3, ?_, ?_⟩
          · intro x hx
            obtain ⟨y, hy, hy2⟩ := e4 x hx
            exact ⟨y, List.mem_cons_of_mem _ hy, hy2⟩
          · rw [e5', hI]; simp
        · have h' : IsXYZ (cur.getD g.label) := by rcases hcs with h1 | h1; exact absurd h1 hI; exact h1
          obtain ⟨x, hx, px, tx, lx⟩ := make_pauli h' g.target
          refine ⟨k, x :: c', by rw [e1]; simp [hI, hx]; rfl, ?_, e3, ?_, ?_⟩
          · rw [canonical_iff] at e2 ⊢
            refine ⟨?_, List.pairwise_cons.2 ⟨?_, e2.2⟩⟩
            · intro y hy
              rcases List.mem_cons.1 hy with rfl | hy
              · exact px
              · exact e2.1 y hy
            · intro y hy; rw [tx]; exact hlt y hy
          · intro y hy
            rcases List.mem_cons.1 hy with rfl | hy
            · exact ⟨g, by simp, tx.symm⟩
            · obtain ⟨z, hz, hz2⟩ := e4 y hy
              exact ⟨z, List.mem_cons_of_mem _ hz, hz2⟩
          · rw [Circuit.opLR_cons, px.op, tx, lx, ← e5', mul_smul_comm]

theorem canonicalize_ok {c : Circuit} (hc : ∀ g ∈ c, PauliGate g) :
    ∃ k c', c.canonicalizePauli = .ok (k, c') ∧ c'.Canonical ∧ IsUnit4 k ∧
      (∀ g ∈ c', ∃ h ∈ c, h.target = g.target) ∧ k • Circuit.opLR c' = Circuit.opLR c := by
  unfold Circuit.canonicalizePauli
  by_cases h0 : c.length = 0
  · have : c = [] := List.length_eq_zero_iff.1 h0
    subst this
    exact ⟨1, [], by simp, ⟨by simp, by simp⟩, .inl rfl, by simp, by simp⟩
  rw [if_neg h0, if_neg (by rw [not_not, isPauli_iff]; exact fun g hg => (hc g hg).letter)]
  have hmem : ∀ g ∈ c.insertionSort (fun a b => a.target ≤ b.target), PauliGate g :=
    fun g hg => hc g ((List.mem_insertionSort _).1 hg)
  have hsort : (c.insertionSort (fun a b => a.target ≤ b.target)).Pairwise (fun a b => a.target ≤ b.target) := by
    have : Std.Total (fun (a b : Gate) => a.target ≤ b.target) := ⟨fun a b => Nat.le_total _ _⟩
    have : IsTrans Gate (fun (a b : Gate) => a.target ≤ b.target) := ⟨fun a b c => Nat.le_trans⟩
    exact List.pairwise_insertionSort _ c
  obtain ⟨k, c', e1, e2, e3, e4, e5⟩ := canonLoop_ok _ none hmem hsort (fun s hs => by cases hs)
  refine ⟨k, c', e1, e2, e3, ?_, ?_⟩
  · intro g hg
    obtain ⟨h, hh, ht⟩ := e4 g hg
    exact ⟨h, (List.mem_insertionSort _).1 hh, ht⟩
  · rw [e5, ← sort_op hc]
    rcases hl : c.insertionSort (fun a b => a.target ≤ b.target) with _ | ⟨g, gs⟩
    · rw [hl]; rfl
    · rw [hl] at hmem
      rw [hl, Circuit.opLR_cons, (hmem g (by simp)).op]; simp

theorem opLR_mul_reverse {c : Circuit} (hc : ∀ g ∈ c, PauliGate g) : Circuit.opLR c * Circuit.opLR c.reverse = 1 := by
  induction c with
  | nil => simp
  | cons g c ih =>
    have hg := hc g (by simp)
    rw [List.reverse_cons, Circuit.opLR_append, Circuit.opLR_cons, mul_assoc,
      ← mul_assoc (Circuit.opLR c), ih (fun x hx => hc x (by simp [hx])), one_mul, Circuit.opLR_cons, Circuit.opLR_nil,
      mul_one, hg.op, pauliL_sq (.inr hg.letter)]

/-- a product of Paulis on distinct qubits does not depend on the order -/
theorem opLR_reverse_distinct {c : Circuit} (hc : ∀ g ∈ c, PauliGate g)
    (hd : c.Pairwise (fun a b => a.target ≠ b.target)) : Circuit.opLR c.reverse = Circuit.opLR c := by
  induction c with
  | nil => rfl
  | cons g c ih =>
    have hd' := List.pairwise_cons.1 hd
    have hc' : ∀ g ∈ c, PauliGate g := fun x hx => hc x (by simp [hx])
    have hg := hc g (by simp)
    rw [List.reverse_cons, Circuit.opLR_append, ih hc' hd'.2, Circuit.opLR_cons, Circuit.opLR_nil, mul_one, Circuit.opLR_cons]
    have : ∀ l : Circuit, (∀ x ∈ l, PauliGate x) → (∀ x ∈ l, g.target ≠ x.target) → Commute (Circuit.opLR l) g.op := by
      intro l
      induction l with
      | nil => intro _ _; exact Commute.one_left _
      | cons x l ihl =>
        intro h1 h2
        rw [Circuit.opLR_cons]
        refine Commute.mul_left ?_ (ihl (fun y hy => h1 y (by simp [hy])) (fun y hy => h2 y (by simp [hy])))
        rw [hg.op, (h1 x (by simp)).op]
        exact pauliL_comm (h2 x (by simp)).symm
    exact (this c hc' hd'.1).eq

theorem Circuit.Canonical.op_eq {c : Circuit} (h : c.Canonical) : Circuit.op c = Circuit.opLR c := by
  rw [canonical_iff] at h
  rw [Circuit.op_eq_reverse, opLR_reverse_distinct h.1 (h.2.imp (fun h => Nat.ne_of_lt h))]

/-- execution order gives the complex-conjugate phase -/
theorem canonicalize_exec {c c' : Circuit} {k : ℂ} (hc : ∀ g ∈ c, PauliGate g) (hk : IsUnit4 k) (hc' : c'.Canonical)
    (h : k • Circuit.opLR c' = Circuit.opLR c) : Circuit.op c = (starRingEnd ℂ) k • Circuit.op c' := by
  have h1 := opLR_mul_reverse hc
  have hg := (canonical_iff.1 hc').1
  have h2 := opLR_mul_reverse hg
  rw [← Circuit.op_eq_reverse] at h1 h2
  have h3 : Circuit.op c' * Circuit.opLR c' = 1 := by rw [hc'.op_eq] at h2 ⊢; exact h2
  rw [← h] at h1
  calc Circuit.op c = ((starRingEnd ℂ) k * k) • ((Circuit.op c' * Circuit.opLR c') * Circuit.op c) := by
        rw [h3, hk.conj_mul, one_smul, one_mul]
    _ = (starRingEnd ℂ) k • (Circuit.op c' * ((k • Circuit.opLR c') * Circuit.op c)) := by
        rw [mul_smul, mul_assoc, smul_mul_assoc, mul_smul_comm]
    _ = _ := by rw [h1, mul_one]

/-- without repeated qubits nothing is multiplied -/
theorem canonLoop_distinct : ∀ (c : Circuit), (∀ g ∈ c, PauliGate g) → c.Pairwise (fun a b => a.target < b.target) →
    Circuit.canonLoop c none = .ok (1, c) := by
  intro c
  induction c with
  | nil => intro _ _; rfl
  | cons g c ih =>
    intro hc hs
    have hg := hc g (by simp)
    have hI : g.label ≠ "I" := by
      rcases hg.letter with h | h | h <;> rw [h] <;> decide
    cases c with
    | nil =>
      unfold Circuit.canonLoop
      simp [hI, hg.make]
    | cons h gs =>
      have h1 : g.target < h.target := (List.pairwise_cons.1 hs).1 h (by simp)
      unfold Circuit.canonLoop
      rw [ih (fun x hx => hc x (List.mem_cons_of_mem _ hx)) (List.pairwise_cons.1 hs).2]
      simp [hI, hg.make, Nat.ne_of_lt h1]
      rfl

theorem canonicalize_canonical {c : Circuit} (h : c.Canonical) : c.canonicalizePauli = .ok (1, c) := by
  have h' := canonical_iff.1 h
  unfold Circuit.canonicalizePauli
  by_cases h0 : c.length = 0
  · rw [if_pos h0]
  rw [if_neg h0, if_neg (by rw [not_not, isPauli_iff]; exact fun g hg => (h'.1 g hg).letter)]
  have hs : c.insertionSort (fun a b => a.target ≤ b.target) = c :=
    List.Pairwise.insertionSort_eq (h'.2.imp (fun h => Nat.le_of_lt h))
  rw [hs]
  exact canonLoop_distinct c h'.1 h'.2

end QF
