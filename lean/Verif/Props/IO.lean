import Verif.Model.IO
import Verif.Spec.Text

/-!
C89: `build_circuit` and `build_operator` build what the text says.
-/
namespace QF
open Text

/-- the call of `gate(...)` a description asks for -/
noncomputable def Text.GateText.build (N : PyNum) : GateText → Except Exc Gate
  | .one a t => pyGate2 a t t
  | .two a t c => pyGate2 a t c
  | .rot a t p => do pyGate3 a t t ((← N.float p : ℝ) : ℂ)
  | .crot a t c p => do pyGate3 a t c ((← N.float p : ℝ) : ℂ)

/-- descriptions `build_circuit` reads correctly: the action and parameter are single words without underscores, and
the action of a parametrised gate (no other) contains the letter `R`. -/
def Text.GateText.Plain : GateText → Prop
  | .one a _ => ∀ c ∈ a.toList, c ≠ '_' ∧ isPySpace c = false
  | .two a _ _ => (∀ c ∈ a.toList, c ≠ '_' ∧ isPySpace c = false) ∧ 'R' ∉ a.toList
  | .rot a _ p => (∀ c ∈ a.toList, c ≠ '_' ∧ isPySpace c = false) ∧ 'R' ∈ a.toList ∧ (∀ c ∈ p, c ≠ '_' ∧ isPySpace c = false)
  | .crot _ _ _ _ => False

theorem splitOnP_cons_pos {p : Char → Bool} {x : Char} (xs : List Char) (h : p x) : (x :: xs).splitOnP p = [] :: xs.splitOnP p := by
  have := List.splitOnP_append_cons (p := p) [] xs h
  simpa using this

theorem pySplit_blank_cons {x : Char} (xs : List Char) (h : isPySpace x) : pySplit (x :: xs) = pySplit xs := by
  simp [pySplit, splitOnP_cons_pos xs h]

theorem blank_space {c : Char} (h : Blank c) : isPySpace c := by
  rcases h with rfl | rfl | rfl <;> decide

theorem pySplit_lead {lead : List Char} (h : ∀ c ∈ lead, Blank c) (s : List Char) : pySplit (lead ++ s) = pySplit s := by
  induction lead with
  | nil => rfl
  | cons c l ih =>
    rw [List.cons_append, pySplit_blank_cons _ (blank_space (h c (by simp)))]
    exact ih fun d hd => h d (by simp [hd])

theorem pySplit_layout {ws : List (List Char)} {s : List Char} (h : Layout ws s) (hw : ∀ w ∈ ws, ∀ c ∈ w, isPySpace c = false) :
    pySplit s = ws := by
  induction h with
  | @blank s h =>
    have := pySplit_lead h []
    rw [List.append_nil] at this
    rw [this]; rfl
  | @word lead w s ws hl hne hL hs ih =>
    rw [List.append_assoc, pySplit_lead hl]
    have ih := ih fun w' h' => hw w' (by simp [h'])
    have hw0 := hw w (by simp)
    cases s with
    | nil =>
      have hws : ws = [] := by
        rcases hs with h | ⟨c, s', e, _⟩
        · exact h
        · cases e
      subst hws
      simp [pySplit, List.splitOnP_eq_singleton hw0, hne]
    | cons c s' =>
      have hc : Blank c := by
        rcases hs with rfl | ⟨c', s'', e, hb⟩
        · cases hL with
          | blank h => exact h c (by simp)
        · cases e; exact hb
      rw [pySplit_blank_cons _ (blank_space hc)] at ih
      rw [← ih]
      simp only [pySplit]
      rw [List.splitOnP_append_cons_of_forall_mem hw0 c (blank_space hc)]
      simp [hne]

theorem num_digit {n : ℕ} {c : Char} (h : c ∈ num n) : c.isDigit := Nat.isDigit_of_mem_toDigits (by decide) (by decide) h

theorem digit_plain {c : Char} (h : c.isDigit) : c ≠ '_' ∧ isPySpace c = false ∧ c ≠ '+' ∧ c ≠ '-' := by
  have h' : 48 ≤ c.toNat ∧ c.toNat ≤ 57 := by
    simp only [Char.isDigit, Bool.and_eq_true, decide_eq_true_eq, ge_iff_le, UInt32.le_iff_toNat_le] at h
    exact h
  refine ⟨?_, ?_, ?_, ?_⟩
  · rintro rfl; revert h'; decide
  · simp only [isPySpace, Bool.or_eq_false_iff, Bool.and_eq_false_iff, decide_eq_false_iff_not]
    refine ⟨⟨⟨⟨⟨⟨?_, ?_⟩, ?_⟩, ?_⟩, by omega⟩, by omega⟩, by omega⟩ <;> (rintro rfl; revert h'; decide)
  · rintro rfl; revert h'; decide
  · rintro rfl; revert h'; decide

theorem pySizeT_num (n : ℕ) : pySizeT (num n) = .ok n := by
  have hd : pyDigits (num n) = .ok n := by
    unfold pyDigits
    rw [if_pos ⟨Nat.toDigits_ne_nil, by simpa [List.all_eq_true] using fun c hc => num_digit hc⟩]
    exact congrArg _ Nat.ofDigitChars_ten_toDigits
  rcases e : num n with _ | ⟨c, s⟩
  · exact absurd e Nat.toDigits_ne_nil
  have hc := digit_plain (num_digit (n := n) (c := c) (by simp [e]))
  rw [e] at hd
  unfold pySizeT
  split
  · simp_all
  · simp_all
  · exact hd

theorem word_split {l : List (List Char)} (hl : l ≠ []) (h : ∀ w ∈ l, '_' ∉ w) : pySplitOn '_' (['_'].intercalate l) = l :=
  List.splitOn_intercalate '_' h hl

theorem num_us (n : ℕ) : '_' ∉ num n := fun h => (digit_plain (num_digit h)).1 rfl

theorem gateOfWord_plain (N : PyNum) (g : GateText) (h : g.Plain) : gateOfWord N g.word = g.build N := by
  cases g with
  | one a t =>
    have e : pySplitOn '_' (GateText.one a t).word = [a.toList, num t] := by
      have := word_split (l := [a.toList, num t]) (by simp) (by
        intro w hw; simp at hw; rcases hw with rfl | rfl
        · exact fun h' => (h _ h').1 rfl
        · exact num_us t)
      simpa [List.intercalate, GateText.word] using this
    simp [gateOfWord, e, pyTok, pySizeT_num, GateText.build, bind, Except.bind]
  | two a t c =>
    obtain ⟨h1, h2⟩ := h
    have e : pySplitOn '_' (GateText.two a t c).word = [a.toList, num t, num c] := by
      have := word_split (l := [a.toList, num t, num c]) (by simp) (by
        intro w hw; simp at hw; rcases hw with rfl | rfl | rfl
        · exact fun h' => (h1 _ h').1 rfl
        · exact num_us t
        · exact num_us c)
      simpa [List.intercalate, GateText.word] using this
    simp [gateOfWord, e, pyTok, pySizeT_num, GateText.build, h2, bind, Except.bind]
  | rot a t p =>
    obtain ⟨h1, h2, h3⟩ := h
    have e : pySplitOn '_' (GateText.rot a t p).word = [a.toList, num t, p] := by
      have := word_split (l := [a.toList, num t, p]) (by simp) (by
        intro w hw; simp at hw; rcases hw with rfl | rfl | rfl
        · exact fun h' => (h1 _ h').1 rfl
        · exact num_us t
        · exact fun h' => (h3 _ h').1 rfl)
      simpa [List.intercalate, GateText.word] using this
    simp [gateOfWord, e, pyTok, pySizeT_num, GateText.build, h2, bind, Except.bind]
  | crot a t c p => exact h.elim

theorem plain_word (g : GateText) (h : g.Plain) : ∀ c ∈ g.word, isPySpace c = false := by
  intro c hc
  cases g with
  | one a t =>
    simp only [GateText.word, List.mem_append, List.mem_singleton] at hc
    rcases hc with (hc | rfl) | hc
    · exact (h c hc).2
    · decide
    · exact (digit_plain (num_digit hc)).2.1
  | two a t c' =>
    simp only [GateText.word, List.mem_append, List.mem_singleton] at hc
    rcases hc with (((hc | rfl) | hc) | rfl) | hc
    · exact (h.1 c hc).2
    · decide
    · exact (digit_plain (num_digit hc)).2.1
    · decide
    · exact (digit_plain (num_digit hc)).2.1
  | rot a t p =>
    simp only [GateText.word, List.mem_append, List.mem_singleton] at hc
    rcases hc with (((hc | rfl) | hc) | rfl) | hc
    · exact (h.1 c hc).2
    · decide
    · exact (digit_plain (num_digit hc)).2.1
    · decide
    · exact (h.2.2 c hc).2
  | crot a t c p => exact h.elim

theorem foldl_mapM {α β ε : Type} (f : α → Except ε β) (l : List α) (acc : List β) :
    l.foldlM (fun c w => do return c ++ [← f w]) acc = (do let r ← l.mapM f; return acc ++ r) := by
  induction l generalizing acc with
  | nil => simp
  | cons a l ih =>
    rw [List.foldlM_cons, List.mapM_cons]
    cases h : f a with
    | error e => rfl
    | ok b =>
      simp only [bind, Except.bind, pure, Except.pure]
      have := ih (acc ++ [b])
      simp only [bind, Except.bind, pure, Except.pure] at this
      rw [this]
      cases l.mapM f <;> simp

theorem buildCircuit_eq (N : PyNum) (s : List Char) : buildCircuit N s = (pySplit s).mapM (gateOfWord N) := by
  have := foldl_mapM (gateOfWord N) (pySplit s) []
  simp only [List.nil_append] at this
  refine Eq.trans (Eq.trans ?_ this) (bind_pure _)
  rfl

/-- **C89 (partial).** The full property: for every list of gate descriptions, whatever the layout of the text, `build_circuit` returns
the circuit made of the described gates in their order (or raises the exception the first bad description raises).
Proved for all descriptions but the controlled rotations `[action]_[target]_[control]_[parameter]`, for which it is
false (`C89_controlled_rotation`). -/
theorem C89_build_circuit_partial (N : PyNum) (gs : List GateText) (s : List Char) (hp : ∀ g ∈ gs, g.Plain)
    (hs : Layout (gs.map GateText.word) s) : buildCircuit N s = gs.mapM (GateText.build N) := by
  rw [buildCircuit_eq, pySplit_layout hs (by
    intro w hw; obtain ⟨g, hg, rfl⟩ := List.mem_map.1 hw; exact plain_word g (hp g hg))]
  rw [List.mapM_map]
  clear hs
  induction gs with
  | nil => rfl
  | cons g gs ih =>
    rw [List.mapM_cons, List.mapM_cons, ih fun g' h' => hp g' (by simp [h'])]
    simp only [Function.comp]
    rw [gateOfWord_plain N g (hp g (by simp))]

/-- **C89 (refutation).** A controlled rotation, written in the documented format, is built without its control and without its
parameter: the word is read as a gate on the target alone whose parameter is the number of the control qubit. -/
theorem C89_controlled_rotation (N : PyNum) (a : String) (ha : ∀ c ∈ a.toList, c ≠ '_' ∧ isPySpace c = false) (hR : 'R' ∈ a.toList)
    (t c : ℕ) (p : List Char) (hp : ∀ x ∈ p, x ≠ '_' ∧ isPySpace x = false) :
    gateOfWord N (GateText.crot a t c p).word = (GateText.rot a t (num c)).build N := by
  have e : pySplitOn '_' (GateText.crot a t c p).word = [a.toList, num t, num c, p] := by
    have := word_split (l := [a.toList, num t, num c, p]) (by simp) (by
      intro w hw; simp at hw; rcases hw with rfl | rfl | rfl | rfl
      · exact fun h' => (ha _ h').1 rfl
      · exact num_us t
      · exact num_us c
      · exact fun h' => (hp _ h').1 rfl)
    simpa [List.intercalate, GateText.word] using this
  simp [gateOfWord, e, pyTok, pySizeT_num, GateText.build, hR, bind, Except.bind]

/-- ... so the controlled phase gate `cR_1_0_0.5` and the controlled rotation `cRz_1_0_0.5` cannot be built from text, although
`gate("cR", 1, 0, 0.5)` and `gate("cRz", 1, 0, 0.5)` are gates. -/
theorem C89_controlled_rotation_witness (N : PyNum) (x : ℝ) (h0 : N.float ['0'] = .ok x) (h5 : N.float ['0', '.', '5'] = .ok (1 / 2))
    (a : String) (ha : a = "cR" ∨ a = "cRz") :
    gateOfWord N (GateText.crot a 1 0 ['0', '.', '5']).word = .error .invalidArgument ∧
      ∃ g, (GateText.crot a 1 0 ['0', '.', '5']).build N = .ok g := by
  constructor
  · rw [C89_controlled_rotation N a (by rcases ha with rfl | rfl <;> decide) (by rcases ha with rfl | rfl <;> decide) 1 0 _ (by decide)]
    have : num 0 = ['0'] := by decide
    rcases ha with rfl | rfl <;> simp [GateText.build, this, h0, bind, Except.bind, pyGate3, makeGate]
  · rcases ha with rfl | rfl <;> simp [GateText.build, h5, bind, Except.bind, pyGate3, makeGate]

/-- **C89.** A word `NAME_-n` with `n > 0` raises `TypeError`: a negative qubit index is not read as its absolute value. -/
theorem C89_negative_index (N : PyNum) (a : String) (ha : ∀ c ∈ a.toList, c ≠ '_' ∧ isPySpace c = false) (n : ℕ) :
    gateOfWord N (a.toList ++ ['_', '-'] ++ num (n + 1)) = .error .typeError := by
  have e : pySplitOn '_' (a.toList ++ ['_', '-'] ++ num (n + 1)) = [a.toList, '-' :: num (n + 1)] := by
    have := word_split (l := [a.toList, '-' :: num (n + 1)]) (by simp) (by
      intro w hw; simp at hw; rcases hw with rfl | rfl
      · exact fun h' => (ha _ h').1 rfl
      · intro h'
        rcases List.mem_cons.1 h' with h' | h'
        · exact absurd h' (by decide)
        · exact num_us _ h')
    simpa [List.intercalate] using this
  have hd : pyDigits (num (n + 1)) = .ok (n + 1) := by
    unfold pyDigits
    rw [if_pos ⟨Nat.toDigits_ne_nil, by simpa [List.all_eq_true] using fun c hc => num_digit hc⟩]
    exact congrArg _ Nat.ofDigitChars_ten_toDigits
  have hs : pySizeT ('-' :: num (n + 1)) = .error .typeError := by
    simp [pySizeT, hd, bind, Except.bind]
  unfold gateOfWord
  rw [e]
  simp [pyTok, hs, bind, Except.bind]

/-- **C89.** `build_operator`: a text `coeff, circuit; coeff, circuit; ...` gives the operator with these terms in this order. -/
theorem C89_build_operator (N : PyNum) (ts : List (List Char × List Char)) (hne : ts ≠ [])
    (h : ∀ t ∈ ts, (';' ∉ t.1 ∧ ',' ∉ t.1) ∧ (';' ∉ t.2 ∧ ',' ∉ t.2)) :
    buildOperator N ([';'].intercalate (ts.map fun t => t.1 ++ [','] ++ t.2)) =
      ts.mapM fun t => do
        let z ← N.complex t.1
        let c ← buildCircuit N t.2
        return (z, c) := by
  have e1 : pySplitOn ';' ([';'].intercalate (ts.map fun t => t.1 ++ [','] ++ t.2)) = ts.map fun t => t.1 ++ [','] ++ t.2 := by
    refine List.splitOn_intercalate ';' ?_ (by simpa using hne)
    intro w hw
    obtain ⟨t, ht, rfl⟩ := List.mem_map.1 hw
    simp [(h t ht).1.1, (h t ht).2.1]
  unfold buildOperator
  rw [e1]
  have := foldl_mapM (fun term : List Char => do
    let z ← N.complex (← pyTok (pySplitOn ',' term) 0)
    let c ← buildCircuit N (← pyTok (pySplitOn ',' term) 1)
    return (z, c)) (ts.map fun t => t.1 ++ [','] ++ t.2) []
  simp only [List.nil_append] at this
  refine Eq.trans (Eq.trans ?_ this) ?_
  · congr 1
    funext A w
    simp only [QubitOperator.addTerm, bind, Except.bind, pure, Except.pure]
    rcases pyTok (pySplitOn ',' w) 0 with e | a
    · rfl
    · dsimp only
      rcases N.complex a with e | z
      · rfl
      · dsimp only
        rcases pyTok (pySplitOn ',' w) 1 with e | b
        · rfl
        · dsimp only
          rcases buildCircuit N b with e | c <;> rfl
  · rw [List.mapM_map, bind_pure]
    clear hne e1 this
    induction ts with
    | nil => rfl
    | cons t ts ih =>
      rw [List.mapM_cons, List.mapM_cons, ih fun t' h' => h t' (by simp [h'])]
      have ht := h t (by simp)
      have e2 : pySplitOn ',' (t.1 ++ [','] ++ t.2) = [t.1, t.2] := by
        have := List.splitOn_intercalate (ls := [t.1, t.2]) ',' (by simp [ht.1.2, ht.2.2]) (by simp)
        simpa [List.intercalate, pySplitOn] using this
      simp only [Function.comp, e2]
      rfl

/-- a case of `C89_build_circuit_partial`: three gates of the three kinds, irregular blanks -/
theorem C89_example (N : PyNum) : Layout ([GateText.one "X" 0, .rot "Rz" 12 "0.1".toList, .two "CNOT" 3 1].map GateText.word)
      " X_0\t Rz_12_0.1\nCNOT_3_1 ".toList ∧
    (∀ g ∈ [GateText.one "X" 0, .rot "Rz" 12 "0.1".toList, .two "CNOT" 3 1], g.Plain) ∧
    buildCircuit N " X_0\t Rz_12_0.1\nCNOT_3_1 ".toList = (do
      let g1 ← pyGate2 "X" 0 0
      let θ ← N.float "0.1".toList
      let g2 ← pyGate3 "Rz" 12 12 (θ : ℂ)
      let g3 ← pyGate2 "CNOT" 3 1
      return [g1, g2, g3]) := by
  have hL : Layout ([GateText.one "X" 0, .rot "Rz" 12 "0.1".toList, .two "CNOT" 3 1].map GateText.word)
      " X_0\t Rz_12_0.1\nCNOT_3_1 ".toList := by
    refine .word (lead := [' ']) (w := "X_0".toList) (s := "\t Rz_12_0.1\nCNOT_3_1 ".toList) (by simp [Blank]) (by decide) ?_ (.inr ⟨_, _, rfl, .inr (.inl rfl)⟩)
    refine .word (lead := ['\t', ' ']) (w := "Rz_12_0.1".toList) (s := "\nCNOT_3_1 ".toList) (by simp [Blank]) (by decide) ?_ (.inr ⟨_, _, rfl, .inr (.inr rfl)⟩)
    exact .word (lead := ['\n']) (w := "CNOT_3_1".toList) (s := [' ']) (by simp [Blank]) (by decide) (.blank (by simp [Blank])) (.inl rfl)
  have hP : ∀ g ∈ [GateText.one "X" 0, .rot "Rz" 12 "0.1".toList, .two "CNOT" 3 1], g.Plain := by
    intro g hg
    simp only [List.mem_cons, List.not_mem_nil, or_false] at hg
    rcases hg with rfl | rfl | rfl <;> simp only [GateText.Plain] <;> decide
  refine ⟨hL, hP, ?_⟩
  rw [C89_build_circuit_partial N _ _ hP hL]
  simp only [List.mapM_cons, List.mapM_nil, GateText.build, bind_assoc, pure_bind]

end QF
