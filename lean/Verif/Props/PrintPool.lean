import Verif.Props.Print

/-!
C106 continued: what `repr` of a gate and `str` of a pool tell.
-/
namespace QF
namespace Print

theorem entries_inj {F : ℝ → Text} (hF : FixedFmt F) {α : Type} (l : List α) {a b : α → ℂ} {R : Text}
    (e : (l.flatMap fun j => reprEntry F (a j)) ++ R = (l.flatMap fun j => reprEntry F (b j)) ++ R) : ∀ j ∈ l, Close (a j) (b j) := by
  have np : ∀ {x : ℝ}, ∀ c ∈ F x, decide (c ≠ ' ') = true := by
    intro x c hc
    have := hF.chars x c hc
    simp only [decide_eq_true_eq]
    rintro rfl
    revert this; decide
  induction l with
  | nil => simp
  | cons j l ih =>
    rw [List.flatMap_cons, List.flatMap_cons] at e
    generalize (l.flatMap fun j => reprEntry F (a j)) = X at e ih
    generalize (l.flatMap fun j => reprEntry F (b j)) = Y at e ih
    simp only [reprEntry, List.cons_append, List.append_assoc, List.cons.injEq, true_and] at e
    obtain ⟨h1, e⟩ := cut (p := fun c => decide (c ≠ ' ')) np np (by simp) (by simp) e
    have e := (List.cons.inj e).2
    obtain ⟨h2, e⟩ := cut (p := fun c => decide (c ≠ ' ')) np np (by simp) (by simp) e
    simp only [List.nil_append, List.cons.injEq, true_and] at e
    intro i hi
    rcases List.mem_cons.1 hi with rfl | hi
    · exact ⟨hF.round _ _ h1, hF.round _ _ h2⟩
    · exact ih e i hi

/-- C106: `repr` of a gate determines its label, its qubits and, to six decimals, its matrix (for a one-qubit gate: the 2×2 block that is its matrix) -/
theorem C106_repr {F : ℝ → Text} (hF : FixedFmt F) {g h : Gate} (hg : ApiGateAny g) (hh : ApiGateAny h) (e : gateRepr F g = gateRepr F h) :
    g.label = h.label ∧ g.target = h.target ∧ g.control = h.control ∧ ∀ i j : Fin 4, (g.target = g.control → i.val < 2 ∧ j.val < 2) → Close (g.mat i j) (h.mat i j) := by
  unfold gateRepr at e
  simp only [List.append_assoc] at e
  have lab : ∀ {g : Gate}, ApiGateAny g → ∀ c ∈ g.label.toList, decide (c ≠ ' ') = true := by
    intro g hg c hc
    simpa using (labelChar_facts (api_plain hg c hc)).2.2.1
  obtain ⟨h1, e⟩ := cut (p := fun c => decide (c ≠ ' ')) (lab hg) (lab hh) (by simp) (by simp) e
  have e := List.append_cancel_left e
  obtain ⟨h2, e⟩ := cut (p := Char.isDigit) (fun a => dec_digit) (fun a => dec_digit) (by simp) (by simp) e
  have e := List.append_cancel_left e
  obtain ⟨h3, e⟩ := cut (p := Char.isDigit) (fun a => dec_digit) (fun a => dec_digit) (by simp) (by simp) e
  have e := List.append_cancel_left e
  have h2 := dec_inj h2
  have h3 := dec_inj h3
  have hidx : reprIndex h = reprIndex g := by unfold reprIndex; rw [h2, h3]
  rw [hidx] at e
  have nl : ∀ a : Gate × Fin 4, '\n' ∉ (reprIndex g).flatMap fun j => reprEntry F (a.1.mat a.2 j) := by
    intro a ha
    obtain ⟨j, -, hj⟩ := List.mem_flatMap.1 ha
    have np : ∀ x : ℝ, '\n' ∉ F x := by
      intro x hc
      have := hF.chars x _ hc
      revert this; decide
    simp [reprEntry, np] at hj
  have e1 := blocks_inj (f := fun a : Gate × Fin 4 => (reprIndex g).flatMap fun j => reprEntry F (a.1.mat a.2 j)) nl
    (l := (reprIndex g).map fun i => (g, i)) (m := (reprIndex g).map fun i => (h, i)) (by rw [List.flatMap_map, List.flatMap_map]; exact e)
  rw [List.map_map, List.map_map] at e1
  refine ⟨String.ext_iff.2 h1, h2, h3, fun i j hij => ?_⟩
  have mem : ∀ i : Fin 4, (g.target = g.control → i.val < 2) → i ∈ reprIndex g := by
    intro i hi
    unfold reprIndex
    split_ifs with hc
    · have := hi hc
      fin_cases i <;> simp_all
    · fin_cases i <;> simp
  have e2 := List.map_inj_left.1 e1 i (mem i fun hc => (hij hc).1)
  exact entries_inj hF (reprIndex g) (R := []) (by simpa using e2) j (mem j fun hc => (hij hc).2)

/-- every newline is followed by something else on the next line -/
def calm : Text → Prop
  | [] => True
  | c :: t => (c = '\n' → ∃ d r, t = d :: r ∧ d ≠ '\n') ∧ calm t

theorem calm_cut {t s R S : Text} (ht : calm t) (hs : calm s) (e : t ++ '\n' :: '\n' :: R = s ++ '\n' :: '\n' :: S) : t = s ∧ R = S := by
  induction t generalizing s with
  | nil =>
    cases s with
    | nil => simpa using e
    | cons c s =>
      simp only [List.nil_append, List.cons_append, List.cons.injEq] at e
      obtain ⟨d, r, h, hd⟩ := hs.1 e.1.symm
      rw [h] at e
      simp at e
      exact absurd e.2.1.symm hd
  | cons c t ih =>
    cases s with
    | nil =>
      simp only [List.nil_append, List.cons_append, List.cons.injEq] at e
      obtain ⟨d, r, h, hd⟩ := ht.1 e.1
      rw [h] at e
      simp at e
      exact absurd e.2.1 hd
    | cons d s =>
      simp only [List.cons_append, List.cons.injEq] at e
      obtain ⟨h1, h2⟩ := ih ht.2 hs.2 e.2
      exact ⟨by rw [e.1, h1], h2⟩

theorem calm_plain {s t : Text} (hs : '\n' ∉ s) (ht : calm t) : calm (s ++ t) := by
  induction s with
  | nil => exact ht
  | cons c s ih =>
    refine ⟨fun h => absurd (by simp [h]) hs, ih fun h => hs (by simp [h])⟩

theorem calm_nl {c : Char} {t : Text} (hc : c ≠ '\n') (ht : calm (c :: t)) : calm ('\n' :: c :: t) := ⟨fun _ => ⟨c, t, rfl, hc⟩, ht⟩

/-- a pool entry up to the text of its operator -/
noncomputable def header (F : ℝ → Text) (k : ℕ) (z : ℂ) : Text :=
  ' ' :: "----->".toList ++ (' ' :: dec k) ++ " <-----".toList ++ ('\n' :: ' ' :: complex F z) ++ " [".toList

theorem calm_header {F : ℝ → Text} (hF : FixedFmt F) (k : ℕ) (z : ℂ) {t : Text} (ht : calm (' ' :: t)) : calm (header F k z ++ '\n' :: ' ' :: t) := by
  have h1 : calm (' ' :: complex F z ++ " [".toList ++ '\n' :: ' ' :: t) := by
    refine calm_plain ?_ (calm_nl (by decide) ht)
    have := (complex_not hF z).2.1
    simp [this]
  have h2 : '\n' ∉ ' ' :: "----->".toList ++ (' ' :: dec k) ++ " <-----".toList := by
    have hd : '\n' ∉ dec k := fun h => (digit_facts (dec_digit h)).2.2.2.1 rfl
    simp [hd]
  have := calm_plain h2 (calm_nl (by decide) h1)
  simpa [header] using this

/-- pools whose entries have calm texts, followed by a fixed ending and an empty line -/
theorem entries_text {α : Type} {F : ℝ → Text} (hF : FixedFmt F) {str : α → Text} {fin : Text} {r : α → α → Prop} {P Q : List (ℂ × α)}
    (hcalm : ∀ t ∈ P ++ Q, calm (' ' :: (str t.2 ++ fin))) (hinj : ∀ t ∈ P, ∀ s ∈ Q, str t.2 = str s.2 → r t.2 s.2) (k : ℕ)
    (e : ((P.zipIdx k).flatMap fun t => header F t.2 t.1.1 ++ '\n' :: ' ' :: (str t.1.2 ++ fin) ++ ['\n', '\n']) =
      (Q.zipIdx k).flatMap fun t => header F t.2 t.1.1 ++ '\n' :: ' ' :: (str t.1.2 ++ fin) ++ ['\n', '\n']) :
    List.Forall₂ (fun t s => Close t.1 s.1 ∧ r t.2 s.2) P Q := by
  have nb : ∀ z, ∀ a ∈ complex F z ++ [' '], decide (a ≠ '[') = true := by
    intro z a ha
    simp only [decide_eq_true_eq]
    rintro rfl
    rcases List.mem_append.1 ha with h | h
    · exact (complex_not hF _).1 h
    · revert h; decide
  induction P generalizing Q k with
  | nil =>
    cases Q with
    | nil => exact .nil
    | cons s Q => simp [header] at e
  | cons t P ih =>
    cases Q with
    | nil => simp [header] at e
    | cons s Q =>
      simp only [List.zipIdx_cons, List.flatMap_cons] at e
      have e' : (header F k t.1 ++ '\n' :: ' ' :: (str t.2 ++ fin)) ++ '\n' :: '\n' :: ((P.zipIdx (k + 1)).flatMap fun t => header F t.2 t.1.1 ++ '\n' :: ' ' :: (str t.1.2 ++ fin) ++ ['\n', '\n']) =
          (header F k s.1 ++ '\n' :: ' ' :: (str s.2 ++ fin)) ++ '\n' :: '\n' :: ((Q.zipIdx (k + 1)).flatMap fun t => header F t.2 t.1.1 ++ '\n' :: ' ' :: (str t.1.2 ++ fin) ++ ['\n', '\n']) := by
        simpa using e
      obtain ⟨h1, h2⟩ := calm_cut (calm_header hF k t.1 (hcalm t (by simp))) (calm_header hF k s.1 (hcalm s (by simp))) e'
      refine .cons ?_ (ih (fun t ht => hcalm t ?_) (fun t ht s hs => hinj t (by simp [ht]) s (by simp [hs])) (k + 1) h2)
      · unfold header at h1
        simp only [List.append_assoc, List.cons_append, List.cons.injEq, true_and] at h1
        have h1 := List.append_cancel_left (List.append_cancel_left (List.cons.inj (List.append_cancel_left h1)).2)
        have h1 := (List.cons.inj (List.cons.inj h1).2).2
        rw [show ∀ z (R : Text), complex F z ++ (" [".toList ++ R) = (complex F z ++ [' ']) ++ ('[' :: R) by intro z R; simp,
          show ∀ z (R : Text), complex F z ++ (" [".toList ++ R) = (complex F z ++ [' ']) ++ ('[' :: R) by intro z R; simp] at h1
        obtain ⟨a, b⟩ := cut (p := fun c => decide (c ≠ '[')) (nb _) (nb _) (by simp) (by simp) h1
        have b := (List.cons.inj (List.cons.inj (List.cons.inj b).2).2).2
        exact ⟨complex_close hF (List.append_cancel_right a), hinj t (by simp) s (by simp) (List.append_cancel_right b)⟩
      · rcases List.mem_append.1 ht with h | h <;> simp [h]

theorem calm_lines {F : ℝ → Text} (hF : FixedFmt F) (A : SQOperator) : calm (' ' :: (sqOperator F A ++ [' ', ']'])) := by
  have key : ∀ A : SQOperator, calm ((A.flatMap fun t => sqLine F t ++ ['\n']) ++ [' ', ']']) := by
    intro A
    induction A with
    | nil => exact by simp [calm]
    | cons t A ih =>
      rw [List.flatMap_cons, List.append_assoc, List.append_assoc]
      refine calm_plain (sqLine_nl hF t) ?_
      have hd : ∃ R, ((A.flatMap fun t => sqLine F t ++ ['\n']) ++ [' ', ']']) = ' ' :: R := by
        cases A with
        | nil => exact ⟨_, rfl⟩
        | cons s A => exact ⟨_, by rw [List.flatMap_cons, sqLine]; simp only [List.cons_append]; rfl⟩
      obtain ⟨R, hR⟩ := hd
      rw [hR] at ih ⊢
      exact calm_nl (by decide) ih
  rw [sqOperator_eq]
  exact ⟨fun h => absurd h (by decide), key A⟩

/-- C106: two pools of second-quantised operators that print the same have as many operators, with the same terms in the same order; all coefficients agree to six decimals -/
theorem C106_sqpool {F : ℝ → Text} (hF : FixedFmt F) {P Q : List (ℂ × SQOperator)} (e : sqPool F P = sqPool F Q) :
    List.Forall₂ (fun t s => Close t.1 s.1 ∧ List.Forall₂ (fun a b => Close a.1 b.1 ∧ a.2.1 = b.2.1 ∧ a.2.2 = b.2.2) t.2 s.2) P Q := by
  have form : ∀ P : List (ℂ × SQOperator), sqPool F P = P.zipIdx.flatMap fun t => header F t.2 t.1.1 ++ '\n' :: ' ' :: (sqOperator F t.1.2 ++ [' ', ']']) ++ ['\n', '\n'] := by
    intro P
    unfold sqPool
    rw [join_cons, List.nil_append, List.flatMap_assoc]
    refine List.flatMap_congr fun t _ => ?_
    simp [header]
  rw [form, form] at e
  exact entries_text hF (str := sqOperator F) (fin := [' ', ']']) (fun t _ => calm_lines hF t.2) (fun t _ s _ h => C106_sq hF h) 0 e

theorem calm_operator {F : ℝ → Text} (hF : FixedFmt F) {A : QubitOperator} (hA : ∀ t ∈ A, ∀ g ∈ t.2, ApiGateAny g) : calm (' ' :: (operator F A ++ [' ', '\n', ' ', ']'])) := by
  have nl : ∀ t ∈ A, '\n' ∉ complex F t.1 ++ circuit t.2 := by
    intro t ht h
    rcases List.mem_append.1 h with h | h
    · exact (complex_not hF _).2.1 h
    · exact circuit_char (fun g hg => api_plain (hA t ht g hg)) h
  have key : ∀ l : QubitOperator, (∀ t ∈ l, t ∈ A) → calm (((l.map fun t => complex F t.1 ++ circuit t.2).flatMap fun t => '\n' :: t) ++ [' ', '\n', ' ', ']']) := by
    intro l hl
    induction l with
    | nil => exact by simp [calm]
    | cons t l ih =>
      rw [List.map_cons, List.flatMap_cons, List.cons_append, List.cons_append, List.append_assoc]
      have h1 := calm_plain (nl t (hl t (by simp))) (ih fun t ht => hl t (by simp [ht]))
      rcases e : complex F t.1 ++ circuit t.2 with _ | ⟨c, r⟩
      · exact absurd (List.append_eq_nil_iff.1 e).1 (complex_ne hF _)
      · rw [e] at h1
        exact calm_nl (fun h => nl t (hl t (by simp)) (by rw [e, h]; simp)) h1
  refine ⟨fun h => absurd h (by decide), ?_⟩
  unfold operator
  cases A with
  | nil => exact by simp [calm, join]
  | cons t A =>
    rw [List.map_cons, join_cons, List.append_assoc]
    exact calm_plain (nl t (by simp)) (key A fun s hs => by simp [hs])

/-- C106: two pools of qubit operators that print the same have as many operators, with the same strings in the same order; all coefficients agree to six decimals -/
theorem C106_qubitpool {F : ℝ → Text} (hF : FixedFmt F) {P Q : List (ℂ × QubitOperator)} (hP : ∀ t ∈ P, ∀ s ∈ t.2, ∀ g ∈ s.2, PauliGate g)
    (hQ : ∀ t ∈ Q, ∀ s ∈ t.2, ∀ g ∈ s.2, PauliGate g) (e : qubitPool F P = qubitPool F Q) :
    List.Forall₂ (fun t s => Close t.1 s.1 ∧ List.Forall₂ (fun a b => Close a.1 b.1 ∧ a.2 = b.2) t.2 s.2) P Q := by
  have form : ∀ P : List (ℂ × QubitOperator), qubitPool F P = P.zipIdx.flatMap fun t => header F t.2 t.1.1 ++ '\n' :: ' ' :: (operator F t.1.2 ++ [' ', '\n', ' ', ']']) ++ ['\n', '\n'] := by
    intro P
    unfold qubitPool
    rw [join_cons, List.nil_append, List.flatMap_assoc]
    refine List.flatMap_congr fun t _ => ?_
    simp [header]
  rw [form, form] at e
  refine entries_text hF (str := operator F) (fin := [' ', '\n', ' ', ']']) (fun t ht => ?_) (fun t ht s hs h => C106_pauli hF (hP t ht) (hQ s hs) h) 0 e
  refine calm_operator hF fun s hs g hg => ?_
  rcases List.mem_append.1 ht with h | h
  · exact .make (hP t h s hs g hg).make
  · exact .make (hQ t h s hs g hg).make

/-- C106: the order of the operators of a pool shows -/
theorem C106_pool_example {F : ℝ → Text} (hF : FixedFmt F) :
    sqPool F [(1, [(1, [2], [0])]), (1, [(1, [3], [1])])] ≠ sqPool F [(1, [(1, [3], [1])]), (1, [(1, [2], [0])])] := by
  intro e
  have h := C106_sqpool hF e
  rw [List.forall₂_cons] at h
  have h := h.1.2
  rw [List.forall₂_cons] at h
  exact absurd h.1.2.1 (by decide)

/-- C106: `repr` tells apart gates that `str` does not -/
theorem C106_repr_angles {F : ℝ → Text} (hF : FixedFmt F) : ∃ g h : Gate, makeGate "Rx" 0 0 0 = .ok g ∧ makeGate "Rx" 0 0 Real.pi = .ok h ∧ gate g = gate h ∧ gateRepr F g ≠ gateRepr F h := by
  refine ⟨_, _, makeGate_of_made (.Rx 0 0), makeGate_of_made (.Rx 0 Real.pi), rfl, fun e => ?_⟩
  have h := (C106_repr hF (.make (makeGate_of_made (.Rx 0 0))) (.make (makeGate_of_made (.Rx 0 Real.pi))) e).2.2.2 0 0 (fun _ => ⟨by decide, by decide⟩)
  rw [rx_pi_mat] at h
  have h0 : normalizeAngle 0 (4 * Real.pi) = 0 := normalizeAngle_of_abs_le (by positivity) (by simp; positivity)
  have := h.1
  rw [h0] at this
  simp [mat1] at this
  norm_num at this

end Print
end QF
