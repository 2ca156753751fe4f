import Verif.Model.Print
import Verif.Props.Basis
import Verif.Props.ComputerEq

/-!
C106: what the printed forms of circuits, operators and states tell.
-/
namespace QF
namespace Print

theorem cut {p : Char → Bool} {A A' B B' : Text} (hA : ∀ a ∈ A, p a = true) (hA' : ∀ a ∈ A', p a = true) (hB : ∀ b, B.head? = some b → p b = false)
    (hB' : ∀ b, B'.head? = some b → p b = false) (e : A ++ B = A' ++ B') : A = A' ∧ B = B' := by
  have h0 : ∀ {B : Text}, (∀ b, B.head? = some b → p b = false) → B.takeWhile p = [] := by
    intro B h
    cases B with
    | nil => rfl
    | cons b B => rw [List.takeWhile_cons, if_neg (by rw [h b rfl]; simp)]
  have h1 := congrArg (List.takeWhile p) e
  rw [List.takeWhile_append_of_pos hA, List.takeWhile_append_of_pos hA', h0 hB, h0 hB', List.append_nil, List.append_nil] at h1
  subst h1
  exact ⟨rfl, List.append_cancel_left e⟩

theorem join_cons (x : Char) (s : Text) (l : List Text) : join [x] (s :: l) = s ++ l.flatMap (fun t => x :: t) := by
  induction l generalizing s with
  | nil => simp [join]
  | cons t l ih => rw [join, ih]; simp; exact List.cons_ne_nil _ _

theorem lead_head {x : Char} (l : List Text) : ∀ b, (l.flatMap (fun t => x :: t)).head? = some b → (decide (b ≠ x)) = false := by
  intro b hb
  cases l with
  | nil => simp at hb
  | cons t l => simp at hb; simp [hb]

theorem lead_inj {x : Char} {l m : List Text} (hl : ∀ t ∈ l, x ∉ t) (hm : ∀ t ∈ m, x ∉ t) (e : l.flatMap (fun t => x :: t) = m.flatMap (fun t => x :: t)) : l = m := by
  induction l generalizing m with
  | nil =>
    cases m with
    | nil => rfl
    | cons t m => simp at e
  | cons s l ih =>
    cases m with
    | nil => simp at e
    | cons t m =>
      rw [List.flatMap_cons, List.flatMap_cons, List.cons_append, List.cons_append] at e
      have e := (List.cons.inj e).2
      have hs := hl s (by simp)
      have ht := hm t (by simp)
      obtain ⟨h1, h2⟩ := cut (p := fun c => decide (c ≠ x)) (fun a ha => by simp; rintro rfl; exact hs ha) (fun a ha => by simp; rintro rfl; exact ht ha)
        (lead_head l) (lead_head m) e
      rw [h1, ih (fun t ht => hl t (by simp [ht])) (fun t ht => hm t (by simp [ht])) h2]

theorem join_inj {x : Char} {l m : List Text} (hl : ∀ t ∈ l, x ∉ t ∧ t ≠ []) (hm : ∀ t ∈ m, x ∉ t ∧ t ≠ []) (e : join [x] l = join [x] m) : l = m := by
  have e' : ∀ l : List Text, l ≠ [] → x :: join [x] l = l.flatMap (fun t => x :: t) := by
    intro l hl
    cases l with
    | nil => exact absurd rfl hl
    | cons s l => rw [join_cons]; simp
  have hn : ∀ l : List Text, (∀ t ∈ l, x ∉ t ∧ t ≠ []) → join [x] l = [] → l = [] := by
    intro l hl h
    cases l with
    | nil => rfl
    | cons s l =>
      rw [join_cons] at h
      exact absurd (List.append_eq_nil_iff.1 h).1 (hl s (by simp)).2
  by_cases h1 : l = []
  · subst h1; exact (hn m hm e.symm).symm
  by_cases h2 : m = []
  · subst h2; exact hn l hl e
  exact lead_inj (fun t ht => (hl t ht).1) (fun t ht => (hm t ht).1) (by rw [← e' l h1, ← e' m h2, e])

/-- blocks that end with a newline -/
theorem blocks_inj {α : Type} {f : α → Text} (hf : ∀ a, '\n' ∉ f a) {l m : List α} (e : l.flatMap (fun a => f a ++ ['\n']) = m.flatMap (fun a => f a ++ ['\n'])) : l.map f = m.map f := by
  induction l generalizing m with
  | nil =>
    cases m with
    | nil => rfl
    | cons t m => simp at e
  | cons s l ih =>
    cases m with
    | nil => simp at e
    | cons t m =>
      rw [List.flatMap_cons, List.flatMap_cons, List.append_assoc, List.append_assoc] at e
      obtain ⟨h1, h2⟩ := cut (p := fun c => decide (c ≠ '\n')) (fun a ha => by simp; rintro rfl; exact hf _ ha) (fun a ha => by simp; rintro rfl; exact hf _ ha)
        (by simp) (by simp) e
      rw [List.map_cons, List.map_cons, h1, ih (by simpa using h2)]

theorem dec_digit {n : ℕ} {c : Char} (h : c ∈ dec n) : c.isDigit = true := Nat.isDigit_of_mem_toDigits (by decide) (by decide) h
theorem dec_ne (n : ℕ) : dec n ≠ [] := Nat.toDigits_ne_nil
theorem dec_inj {m n : ℕ} (h : dec m = dec n) : m = n := by
  have := congrArg (fun t => Nat.ofDigitChars 10 t 0) h
  simpa only [dec, Nat.ofDigitChars_toDigits (by decide : 1 < 10) (by decide)] using this
theorem dec_head {n : ℕ} {r : Text} : ∀ b, (dec n ++ r).head? = some b → b.isDigit = true := by
  intro b hb
  rcases e : dec n with _ | ⟨c, t⟩
  · exact absurd e (dec_ne n)
  · rw [e] at hb
    simp at hb
    exact hb ▸ dec_digit (by rw [e]; simp)

/-- the characters that occur in labels -/
def LabelChar (c : Char) : Prop := c.isAlpha = true ∨ c = '(' ∨ c = ')'

def PlainLabel (s : String) : Prop := ∀ c ∈ s.toList, LabelChar c

theorem labelChar_facts {c : Char} (h : LabelChar c) : c.isDigit = false ∧ c ≠ '_' ∧ c ≠ ' ' ∧ c ≠ '[' ∧ c ≠ '\n' := by
  have key : ∀ d : Char, d.isAlpha = false → d ≠ '(' → d ≠ ')' → c ≠ d := by
    rintro d h1 h2 h3 rfl
    rcases h with h | h | h
    · rw [h1] at h; cases h
    · exact h2 h
    · exact h3 h
  refine ⟨?_, key _ (by decide) (by decide) (by decide), key _ (by decide) (by decide) (by decide), key _ (by decide) (by decide) (by decide), key _ (by decide) (by decide) (by decide)⟩
  rcases h with h | rfl | rfl
  · rw [Bool.eq_false_iff]
    intro hd
    simp only [Char.isAlpha, Char.isUpper, Char.isLower, Char.isDigit, Bool.or_eq_true, Bool.and_eq_true, decide_eq_true_eq, ge_iff_le, UInt32.le_iff_toNat_le] at h hd
    have h1 := hd.1
    have h2 := hd.2
    have a1 : ('A' : Char).val.toNat = 65 := rfl
    have a2 : ('Z' : Char).val.toNat = 90 := rfl
    have a3 : ('a' : Char).val.toNat = 97 := rfl
    have a4 : ('0' : Char).val.toNat = 48 := rfl
    have a5 : ('9' : Char).val.toNat = 57 := rfl
    have a6 : ('z' : Char).val.toNat = 122 := rfl
    simp only [a1, a2, a3, a4, a5, a6] at *
    rcases h with h | h <;> omega
  · decide
  · decide

theorem digit_facts {c : Char} (h : c.isDigit = true) : c ≠ '_' ∧ c ≠ ' ' ∧ c ≠ '[' ∧ c ≠ '\n' ∧ c ≠ '(' ∧ c ≠ ')' ∧ c ≠ '^' ∧ c ≠ '|' ∧ c ≠ 'i' ∧ c ≠ 'j' := by
  refine ⟨?_, ?_, ?_, ?_, ?_, ?_, ?_, ?_, ?_, ?_⟩ <;> (rintro rfl; revert h; decide)

theorem plain_adj {s : String} (h : PlainLabel s) : PlainLabel (adjLabel s) := by
  unfold adjLabel
  simp only
  split_ifs
  · intro c hc
    rw [String.toList_ofList] at hc
    exact h c (List.mem_of_mem_drop (List.mem_of_mem_take hc))
  · intro c hc
    simp only [String.toList_append, List.mem_append] at hc
    rcases hc with (hc | hc) | hc
    · have : c = 'a' ∨ c = 'd' ∨ c = 'j' ∨ c = '(' := by simpa using hc
      rcases this with rfl | rfl | rfl | rfl <;> simp [LabelChar]
    · exact h c hc
    · have : c = ')' := by simpa using hc
      subst this; simp [LabelChar]

theorem plain_of {s : String} (h : s.toList.all (fun c => c.isAlpha || c == '(' || c == ')') = true) : PlainLabel s := by
  intro c hc
  have := List.all_eq_true.1 h c hc
  simpa [LabelChar, or_assoc] using this

theorem make_plain {ty : String} {t c : ℕ} {θ : ℝ} {g : Gate} (h : makeGate ty t c θ = .ok g) : PlainLabel g.label := by
  have hm := made_of_makeGate h
  have hl : g.label = ty := by cases hm <;> rfl
  rw [hl]
  rcases made_name hm with ⟨-, h⟩ | ⟨-, h⟩
  · simp only [names1, List.mem_cons, List.not_mem_nil, or_false] at h
    rcases h with rfl|rfl|rfl|rfl|rfl|rfl|rfl|rfl|rfl|rfl|rfl|rfl <;> exact plain_of (by decide)
  · simp only [names2, List.mem_cons, List.not_mem_nil, or_false] at h
    rcases h with rfl|rfl|rfl|rfl|rfl|rfl|rfl|rfl|rfl|rfl|rfl <;> exact plain_of (by decide)

theorem api_plain {g : Gate} (h : ApiGateAny g) : PlainLabel g.label := by
  induction h with
  | make h => exact make_plain h
  | @adj g _ ih =>
    unfold Gate.adjoint
    simp only
    split
    · exact ih
    · split_ifs
      · exact ih
      · show PlainLabel "R"; exact plain_of (by decide)
      · show PlainLabel "R"; exact plain_of (by decide)
      · exact plain_adj ih
  | ctrl _ h _ =>
    unfold makeControlGate at h
    split_ifs at h
    cases h
    show PlainLabel "cU"
    exact plain_of (by decide)

theorem gate_char {g : Gate} (hg : PlainLabel g.label) {c : Char} (hc : c ∈ gate g) : LabelChar c ∨ c.isDigit = true ∨ c = '_' := by
  unfold gate at hc
  split_ifs at hc
  · rcases List.mem_append.1 hc with h | h
    · exact .inl (hg c h)
    · exact .inr (.inl (dec_digit h))
  · rcases List.mem_append.1 hc with h | h
    · rcases List.mem_append.1 h with h | h
      · exact .inl (hg c h)
      · exact .inr (.inl (dec_digit h))
    · rcases List.mem_cons.1 h with rfl | h
      · exact .inr (.inr rfl)
      · exact .inr (.inl (dec_digit h))

theorem gate_ne (g : Gate) : gate g ≠ [] := by
  unfold gate
  split_ifs <;> simp [dec_ne]

/-- the printed gate determines the label and the qubits -/
theorem gate_inj {g h : Gate} (hg : PlainLabel g.label) (hh : PlainLabel h.label) (e : gate g = gate h) : g.label = h.label ∧ g.target = h.target ∧ g.control = h.control := by
  have form : ∀ g : Gate, ∃ r : Text, gate g = g.label.toList ++ (dec g.target ++ r) ∧ ((r = [] ∧ g.target = g.control) ∨ (r = '_' :: dec g.control ∧ g.target ≠ g.control)) := by
    intro g
    unfold gate
    split_ifs with h
    · exact ⟨[], by simp, .inl ⟨rfl, h⟩⟩
    · exact ⟨'_' :: dec g.control, by simp, .inr ⟨rfl, h⟩⟩
  obtain ⟨r, e1, h1⟩ := form g
  obtain ⟨s, e2, h2⟩ := form h
  rw [e1, e2] at e
  obtain ⟨a1, a2⟩ := cut (p := fun c => !c.isDigit) (fun a ha => by simp [(labelChar_facts (hg a ha)).1]) (fun a ha => by simp [(labelChar_facts (hh a ha)).1])
    (fun b hb => by simp [dec_head b hb]) (fun b hb => by simp [dec_head b hb]) e
  have hr : ∀ {r : Text} {g : Gate}, ((r = [] ∧ g.target = g.control) ∨ (r = '_' :: dec g.control ∧ g.target ≠ g.control)) → ∀ b, r.head? = some b → b.isDigit = false := by
    rintro r g (⟨rfl, -⟩ | ⟨rfl, -⟩) b hb
    · simp at hb
    · simp at hb; subst hb; decide
  obtain ⟨b1, b2⟩ := cut (p := fun c => c.isDigit) (fun a ha => dec_digit ha) (fun a ha => dec_digit ha) (hr h1) (hr h2) a2
  have ht := dec_inj b1
  refine ⟨String.toList_injective a1, ht, ?_⟩
  rcases h1 with ⟨rfl, q1⟩ | ⟨rfl, q1⟩ <;> rcases h2 with ⟨q, q2⟩ | ⟨q, q2⟩ <;> rw [q] at b2
  · rw [← q1, ← q2, ht]
  · cases b2
  · cases b2
  · exact dec_inj (List.cons.inj b2).2

/-- the labels and qubits of the gates of a circuit, in order -/
def shape (c : Circuit) : List (String × ℕ × ℕ) := c.map fun g => (g.label, g.target, g.control)

theorem map_gate_inj {c d : Circuit} (hc : ∀ g ∈ c, PlainLabel g.label) (hd : ∀ g ∈ d, PlainLabel g.label) (e : c.map gate = d.map gate) : shape c = shape d := by
  induction c generalizing d with
  | nil =>
    cases d with
    | nil => rfl
    | cons h d => simp at e
  | cons g c ih =>
    cases d with
    | nil => simp at e
    | cons h d =>
      rw [List.map_cons, List.map_cons, List.cons.injEq] at e
      obtain ⟨a, b, c'⟩ := gate_inj (hc g (by simp)) (hd h (by simp)) e.1
      have := ih (fun g hg => hc g (by simp [hg])) (fun g hg => hd g (by simp [hg])) e.2
      unfold shape at *
      rw [List.map_cons, List.map_cons, this, a, b, c']

theorem circuit_char {c : Circuit} (hc : ∀ g ∈ c, PlainLabel g.label) : '\n' ∉ circuit c := by
  intro h
  unfold circuit at h
  have key : ∀ l : List Text, (∀ t ∈ l, '\n' ∉ t) → '\n' ∉ join [' '] l := by
    intro l hl h
    cases l with
    | nil => cases h
    | cons s l =>
      rw [join_cons] at h
      rcases List.mem_append.1 h with h | h
      · exact hl s (by simp) h
      · obtain ⟨t, ht, h⟩ := List.mem_flatMap.1 h
        rcases List.mem_cons.1 h with h | h
        · revert h; decide
        · exact hl t (by simp [ht]) h
  simp only [List.cons_append, List.mem_cons, List.mem_append] at h
  rcases h with h | h | h
  · revert h; decide
  · refine key _ ?_ h
    intro t ht hn
    obtain ⟨g, hg, rfl⟩ := List.mem_map.1 (List.mem_reverse.1 ht)
    rcases gate_char (hc g hg) hn with h | h | h
    · exact (labelChar_facts h).2.2.2.2 rfl
    · revert h; decide
    · revert h; decide
  · revert h; decide

/-- C106: the printed form of a circuit of API gates determines the labels and qubits of its gates, in order (and nothing else: see `C106_angles`). -/
theorem C106_circuit {c d : Circuit} (hc : ∀ g ∈ c, ApiGateAny g) (hd : ∀ g ∈ d, ApiGateAny g) : circuit c = circuit d ↔ shape c = shape d := by
  have hc' : ∀ g ∈ c, PlainLabel g.label := fun g hg => api_plain (hc g hg)
  have hd' : ∀ g ∈ d, PlainLabel g.label := fun g hg => api_plain (hd g hg)
  constructor
  · intro e
    unfold circuit at e
    have e1 := List.append_cancel_right e
    have e2 := (List.cons.inj e1).2
    have tok : ∀ {c : Circuit}, (∀ g ∈ c, PlainLabel g.label) → ∀ t ∈ (c.map gate).reverse, ' ' ∉ t ∧ t ≠ [] := by
      intro c hc t ht
      obtain ⟨g, hg, rfl⟩ := List.mem_map.1 (List.mem_reverse.1 ht)
      refine ⟨fun h => ?_, gate_ne g⟩
      rcases gate_char (hc g hg) h with h | h | h
      · exact (labelChar_facts h).2.2.1 rfl
      · revert h; decide
      · revert h; decide
    have e3 := join_inj (tok hc') (tok hd') e2
    exact map_gate_inj hc' hd' (List.reverse_injective e3)
  · intro e
    have : c.map gate = d.map gate := by
      have h : ∀ c : Circuit, c.map gate = (shape c).map fun s => if s.2.1 = s.2.2 then s.1.toList ++ dec s.2.1 else s.1.toList ++ dec s.2.1 ++ ('_' :: dec s.2.2) := by
        intro c; unfold shape; rw [List.map_map]; rfl
      rw [h, h, e]
    unfold circuit
    rw [this]

/-- C106: parameters are not printed, so circuits with different operators can look the same -/
theorem C106_angles : ∃ g h : Gate, makeGate "Rx" 0 0 0 = .ok g ∧ makeGate "Rx" 0 0 Real.pi = .ok h ∧ circuit [g] = circuit [h] ∧ g.mat ≠ h.mat := by
  refine ⟨_, _, makeGate_of_made (.Rx 0 0), makeGate_of_made (.Rx 0 Real.pi), rfl, ?_⟩
  rw [rx_pi_mat]
  intro h
  have := congrFun (congrFun h 0) 0
  have h0 : normalizeAngle 0 (4 * Real.pi) = 0 := normalizeAngle_of_abs_le (by positivity) (by simp; positivity)
  rw [h0] at this
  simp [mat1] at this

/-- what is assumed of `fmt::format("{:+f}", x)`: sign, digits and point, rounded to six decimals -/
structure FixedFmt (F : ℝ → Text) : Prop where
  ne : ∀ x, F x ≠ []
  chars : ∀ x, ∀ c ∈ F x, c.isDigit = true ∨ c = '+' ∨ c = '-' ∨ c = '.'
  round : ∀ x y, F x = F y → |x - y| ≤ 1e-6

theorem complex_char {F : ℝ → Text} (hF : FixedFmt F) (z : ℂ) {c : Char} (h : c ∈ complex F z) : c.isDigit = true ∨ c = '+' ∨ c = '-' ∨ c = '.' ∨ c = ' ' ∨ c = 'i' ∨ c = 'j' := by
  unfold complex at h
  have k : ∀ {x}, c ∈ F x → c.isDigit = true ∨ c = '+' ∨ c = '-' ∨ c = '.' ∨ c = ' ' ∨ c = 'i' ∨ c = 'j' := by
    intro x hx
    rcases hF.chars x c hx with h | h | h | h <;> simp [h]
  split_ifs at h
  · exact k h
  · rcases List.mem_append.1 h with h | h
    · exact k h
    · simp at h; simp [h]
  · rcases List.mem_append.1 h with h | h
    · rcases List.mem_append.1 h with h | h
      · exact k h
      · rcases List.mem_cons.1 h with h | h
        · simp [h]
        · exact k h
    · simp at h; simp [h]

theorem complex_not {F : ℝ → Text} (hF : FixedFmt F) (z : ℂ) : '[' ∉ complex F z ∧ '\n' ∉ complex F z ∧ '(' ∉ complex F z ∧ '|' ∉ complex F z := by
  refine ⟨?_, ?_, ?_, ?_⟩ <;> (intro h; have := complex_char hF z h; revert this; decide)

theorem complex_ne {F : ℝ → Text} (hF : FixedFmt F) (z : ℂ) : complex F z ≠ [] := by
  unfold complex
  split_ifs
  · exact hF.ne _
  · simp
  · simp

/-- real and imaginary part agree to six decimals -/
def Close (z w : ℂ) : Prop := |z.re - w.re| ≤ 1e-6 ∧ |z.im - w.im| ≤ 1e-6

/-- numbers that print the same are close -/
theorem complex_close {F : ℝ → Text} (hF : FixedFmt F) {z w : ℂ} (e : complex F z = complex F w) : Close z w := by
  have np : ∀ {x : ℝ} {c : Char}, (c = 'i' ∨ c = 'j' ∨ c = ' ') → c ∉ F x := by
    intro x c hc h
    have := hF.chars x c h
    rcases hc with rfl | rfl | rfl <;> (revert this; decide)
  have small : |(0 : ℝ)| ≤ 1e-6 := by norm_num
  have last : ∀ {A B : Text} {a b : Char}, A ++ [a] = B ++ [b] → A = B ∧ a = b := fun h => by
    have := List.append_inj' h rfl
    exact ⟨this.1, by simpa using this.2⟩
  unfold complex at e
  unfold Close
  split_ifs at e with h1 h2 h3 h4 h5 h6 h7 h8
  · rw [h1, h2, sub_zero]; exact ⟨hF.round _ _ e, small⟩
  · exact absurd (show 'j' ∈ F z.re by rw [e]; simp) (np (by simp))
  · exact absurd (show 'i' ∈ F z.re by rw [e]; simp) (np (by simp))
  · exact absurd (show 'j' ∈ F w.re by rw [← e]; simp) (np (by simp))
  · rw [h4, h6, sub_zero]; exact ⟨small, hF.round _ _ (last e).1⟩
  · exact absurd (last e).2 (by decide)
  · exact absurd (show 'i' ∈ F w.re by rw [← e]; simp) (np (by simp))
  · exact absurd (last e).2 (by decide)
  · obtain ⟨a, b⟩ := cut (p := fun c => decide (c ≠ ' ')) (fun a ha => by simp; rintro rfl; exact np (by simp) ha) (fun a ha => by simp; rintro rfl; exact np (by simp) ha)
      (by simp) (by simp) (last e).1
    exact ⟨hF.round _ _ a, hF.round _ _ (List.cons.inj b).2⟩

/-- C106: two qubit operators that print the same have the same number of terms, with the same gates in the same order, and coefficients that agree to six decimals -/
theorem C106_operator {F : ℝ → Text} (hF : FixedFmt F) {A B : QubitOperator} (hA : ∀ t ∈ A, ∀ g ∈ t.2, ApiGateAny g) (hB : ∀ t ∈ B, ∀ g ∈ t.2, ApiGateAny g)
    (e : operator F A = operator F B) : List.Forall₂ (fun t s => Close t.1 s.1 ∧ shape t.2 = shape s.2) A B := by
  have tok : ∀ {A : QubitOperator}, (∀ t ∈ A, ∀ g ∈ t.2, ApiGateAny g) → ∀ s ∈ A.map (fun t => complex F t.1 ++ circuit t.2), '\n' ∉ s ∧ s ≠ [] := by
    intro A hA s hs
    obtain ⟨t, ht, rfl⟩ := List.mem_map.1 hs
    refine ⟨fun h => ?_, fun h => complex_ne hF _ (List.append_eq_nil_iff.1 h).1⟩
    rcases List.mem_append.1 h with h | h
    · exact (complex_not hF _).2.1 h
    · exact circuit_char (fun g hg => api_plain (hA t ht g hg)) h
  have e1 := join_inj (tok hA) (tok hB) e
  clear e tok
  induction A generalizing B with
  | nil =>
    cases B with
    | nil => exact .nil
    | cons s B => simp at e1
  | cons t A ih =>
    cases B with
    | nil => simp at e1
    | cons s B =>
      rw [List.map_cons, List.map_cons, List.cons.injEq] at e1
      refine .cons ?_ (ih (fun t ht => hA t (by simp [ht])) (fun t ht => hB t (by simp [ht])) e1.2)
      obtain ⟨a, b⟩ := cut (p := fun c => decide (c ≠ '[')) (fun a ha => by simp; rintro rfl; exact (complex_not hF _).1 ha) (fun a ha => by simp; rintro rfl; exact (complex_not hF _).1 ha)
        (by simp [circuit]) (by simp [circuit]) e1.1
      exact ⟨complex_close hF a, (C106_circuit (hA t (by simp)) (hB s (by simp))).1 b⟩

/-- C106: for operators of Pauli strings, the strings themselves are determined -/
theorem C106_pauli {F : ℝ → Text} (hF : FixedFmt F) {A B : QubitOperator} (hA : ∀ t ∈ A, ∀ g ∈ t.2, PauliGate g) (hB : ∀ t ∈ B, ∀ g ∈ t.2, PauliGate g)
    (e : operator F A = operator F B) : List.Forall₂ (fun t s => Close t.1 s.1 ∧ t.2 = s.2) A B := by
  have h := C106_operator hF (fun t ht g hg => .make (hA t ht g hg).make) (fun t ht g hg => .make (hB t ht g hg).make) e
  clear e
  induction h with
  | nil => exact .nil
  | @cons t s A B h _ ih =>
    refine .cons ⟨h.1, ?_⟩ (ih (fun t ht => hA t (by simp [ht])) fun t ht => hB t (by simp [ht]))
    have h1 := hA t (by simp)
    have h2 := hB s (by simp)
    have h3 := h.2
    generalize t.2 = c at h1 h3
    generalize s.2 = d at h2 h3
    clear ih h
    induction c generalizing d with
    | nil =>
      cases d with
      | nil => rfl
      | cons g d => simp [shape] at h3
    | cons g c ih =>
      cases d with
      | nil => simp [shape] at h3
      | cons g' d =>
        simp only [shape, List.map_cons, List.cons.injEq, Prod.mk.injEq] at h3
        have m1 := (h1 g (by simp)).make
        have m2 := (h2 g' (by simp)).make
        rw [h3.1.1, h3.1.2.1, m2] at m1
        rw [Except.ok.inj m1, ih (fun g hg => h1 g (by simp [hg])) d (fun g hg => h2 g (by simp [hg])) h3.2]

/-- the line of a term of a second-quantised operator, without the newline -/
noncomputable def sqLine (F : ℝ → Text) (t : SQTerm) : Text :=
  ' ' :: complex F t.1 ++ (' ' :: '(' :: (t.2.1.map (fun k => dec k ++ ['^']) ++ t.2.2.map dec ++ [[')']]).flatMap fun s => ' ' :: s)

theorem sqOperator_eq (F : ℝ → Text) (A : SQOperator) : sqOperator F A = A.flatMap fun t => sqLine F t ++ ['\n'] := by
  unfold sqOperator
  rw [join_cons, List.nil_append, List.flatMap_assoc]
  refine List.flatMap_congr fun t _ => ?_
  simp [sqLine, List.flatMap_append]

theorem sqLine_nl {F : ℝ → Text} (hF : FixedFmt F) (t : SQTerm) : '\n' ∉ sqLine F t := by
  have hd : ∀ k, '\n' ∉ dec k := fun k h => (digit_facts (dec_digit h)).2.2.2.1 rfl
  have := (complex_not hF t.1).2.1
  simp [sqLine, List.flatMap_append, this, hd]

/-- C106: two second-quantised operators that print the same have the same terms in the same order, with coefficients that agree to six decimals -/
theorem C106_sq {F : ℝ → Text} (hF : FixedFmt F) {A B : SQOperator} (e : sqOperator F A = sqOperator F B) :
    List.Forall₂ (fun t s => Close t.1 s.1 ∧ t.2.1 = s.2.1 ∧ t.2.2 = s.2.2) A B := by
  rw [sqOperator_eq, sqOperator_eq] at e
  have e1 := blocks_inj (sqLine_nl hF) e
  clear e
  have inj : ∀ t s : SQTerm, sqLine F t = sqLine F s → Close t.1 s.1 ∧ t.2.1 = s.2.1 ∧ t.2.2 = s.2.2 := by
    intro t s h
    unfold sqLine at h
    have hsp : ∀ z, ∀ a ∈ complex F z ++ [' '], decide (a ≠ '(') = true := by
      intro z a ha
      simp only [decide_eq_true_eq]
      rintro rfl
      rcases List.mem_append.1 ha with h | h
      · exact (complex_not hF _).2.2.1 h
      · revert h; decide
    rw [List.cons_append, List.cons_append] at h
    have h := (List.cons.inj h).2
    rw [show ∀ z (r : Text), complex F z ++ ' ' :: '(' :: r = (complex F z ++ [' ']) ++ ('(' :: r) by simp,
      show ∀ z (r : Text), complex F z ++ ' ' :: '(' :: r = (complex F z ++ [' ']) ++ ('(' :: r) by simp] at h
    obtain ⟨a, b⟩ := cut (p := fun c => decide (c ≠ '(')) (hsp _) (hsp _) (by simp) (by simp) h
    have hz := complex_close hF (List.append_cancel_right a)
    have tok : ∀ t : SQTerm, ∀ s ∈ t.2.1.map (fun k => dec k ++ ['^']) ++ t.2.2.map dec ++ [[')']], ' ' ∉ s := by
      intro t s hs
      have hd : ∀ k, ' ' ∉ dec k := fun k h => (digit_facts (dec_digit h)).2.1 rfl
      simp only [List.mem_append, List.mem_map, List.mem_singleton] at hs
      rcases hs with (⟨k, -, rfl⟩ | ⟨k, -, rfl⟩) | rfl
      · simp [hd]
      · exact hd k
      · decide
    have e2 := lead_inj (tok t) (tok s) (List.cons.inj b).2
    have e3 := List.append_cancel_right e2
    have fil : ∀ t : SQTerm, (t.2.1.map (fun k => dec k ++ ['^']) ++ t.2.2.map dec).filter (fun s => decide ('^' ∈ s)) = t.2.1.map (fun k => dec k ++ ['^']) ∧
        (t.2.1.map (fun k => dec k ++ ['^']) ++ t.2.2.map dec).filter (fun s => decide ('^' ∉ s)) = t.2.2.map dec := by
      intro t
      have hd : ∀ k, '^' ∉ dec k := fun k h => (digit_facts (dec_digit h)).2.2.2.2.2.2.1 rfl
      rw [List.filter_append, List.filter_append]
      refine ⟨?_, ?_⟩
      · rw [List.filter_eq_self.2, List.filter_eq_nil_iff.2, List.append_nil]
        · intro s hs; obtain ⟨k, -, rfl⟩ := List.mem_map.1 hs; simp [hd]
        · intro s hs; obtain ⟨k, -, rfl⟩ := List.mem_map.1 hs; simp
      · rw [List.filter_eq_nil_iff.2, List.filter_eq_self.2, List.nil_append]
        · intro s hs; obtain ⟨k, -, rfl⟩ := List.mem_map.1 hs; simp [hd]
        · intro s hs; obtain ⟨k, -, rfl⟩ := List.mem_map.1 hs; simp
    have f1 := congrArg (List.filter fun s => decide ('^' ∈ s)) e3
    have f2 := congrArg (List.filter fun s => decide ('^' ∉ s)) e3
    rw [(fil t).1, (fil s).1] at f1
    rw [(fil t).2, (fil s).2] at f2
    exact ⟨hz, List.map_injective_iff.2 (fun a b h => dec_inj (List.append_cancel_right h)) f1, List.map_injective_iff.2 (fun a b h => dec_inj h) f2⟩
  induction A generalizing B with
  | nil =>
    cases B with
    | nil => exact .nil
    | cons s B => simp at e1
  | cons t A ih =>
    cases B with
    | nil => simp at e1
    | cons s B =>
      rw [List.map_cons, List.map_cons, List.cons.injEq] at e1
      exact .cons (inj t s e1.1) (ih e1.2)

theorem basis_str {n i j : ℕ} (hn : n ≤ 64) (hi : i < 2 ^ n) (hj : j < 2 ^ n) (e : (QubitBasis.str ⟨BitVec.ofNat 64 i⟩ n).toList = (QubitBasis.str ⟨BitVec.ofNat 64 j⟩ n).toList) : i = j := by
  have h64 : 2 ^ n ≤ 2 ^ 64 := Nat.pow_le_pow_right (by norm_num) hn
  have a : QubitBasis.index ⟨BitVec.ofNat 64 i⟩ = i := QubitBasis.C01_index_ofNat (by omega)
  have b : QubitBasis.index ⟨BitVec.ofNat 64 j⟩ = j := QubitBasis.C01_index_ofNat (by omega)
  have := QubitBasis.C01_str_injective hn (by rw [a]; exact hi) (by rw [b]; exact hj) (String.toList_injective e)
  rwa [a, b] at this

/-- C106: two computers on the same number of qubits that print the same have the same set of printed basis states, those whose amplitude is at least the threshold in
modulus, and these amplitudes agree to six decimals -/
theorem C106_computer {F : ℝ → Text} (hF : FixedFmt F) {thr : ℝ} {q r : Computer} (hq : q.WF) (hr : r.WF) (hn : q.nqubit = r.nqubit) (h64 : q.nqubit ≤ 64)
    (e : computer F thr q = computer F thr r) {I : ℕ} (hI : I < 2 ^ q.nqubit) :
    (thr ≤ ‖q.psi I‖ ↔ thr ≤ ‖r.psi I‖) ∧ (thr ≤ ‖q.psi I‖ → Close (q.psi I) (r.psi I)) := by
  classical
  set fq := fun i => complex F (q.coeff.getD i 0) ++ (' ' :: (QubitBasis.str ⟨BitVec.ofNat 64 i⟩ q.nqubit).toList) with hfq
  set fr := fun i => complex F (r.coeff.getD i 0) ++ (' ' :: (QubitBasis.str ⟨BitVec.ofNat 64 i⟩ r.nqubit).toList) with hfr
  set Lq := (List.range q.nbasis).filter fun i => decide (thr ≤ ‖q.coeff.getD i 0‖) with hLq
  set Lr := (List.range r.nbasis).filter fun i => decide (thr ≤ ‖r.coeff.getD i 0‖) with hLr
  have hb : ∀ i n, '\n' ∉ (QubitBasis.str ⟨BitVec.ofNat 64 i⟩ n).toList := by
    intro i n h
    simp [QubitBasis.str] at h
    obtain ⟨k, -, h⟩ := h
    split_ifs at h <;> exact absurd h (by decide)
  have tok : ∀ (c : Computer) (L : List ℕ), ∀ s ∈ [("Computer(").toList] ++ L.map (fun i => complex F (c.coeff.getD i 0) ++ (' ' :: (QubitBasis.str ⟨BitVec.ofNat 64 i⟩ c.nqubit).toList)) ++ [(")").toList],
      '\n' ∉ s ∧ s ≠ [] := by
    intro c L s hs
    simp only [List.mem_append, List.mem_singleton, List.mem_map] at hs
    rcases hs with (rfl | ⟨i, -, rfl⟩) | rfl
    · exact ⟨by decide, by decide⟩
    · refine ⟨fun h => ?_, by simp⟩
      rcases List.mem_append.1 h with h | h
      · exact (complex_not hF _).2.1 h
      · rcases List.mem_cons.1 h with h | h
        · revert h; decide
        · exact hb _ _ h
    · exact ⟨by decide, by decide⟩
  have e1 : Lq.map fq = Lr.map fr := by
    have := join_inj (tok q Lq) (tok r Lr) e
    exact List.append_cancel_left (List.append_cancel_right this)
  have bq : ∀ i ∈ Lq, i < 2 ^ q.nqubit := fun i hi => by
    have := List.mem_range.1 (List.mem_filter.1 hi).1
    rwa [hq.nbasis] at this
  have br : ∀ i ∈ Lr, i < 2 ^ q.nqubit := fun i hi => by
    have := List.mem_range.1 (List.mem_filter.1 hi).1
    rwa [hr.nbasis, ← hn] at this
  have bar : ∀ z, ∀ a ∈ complex F z ++ [' '], decide (a ≠ '|') = true := by
    intro z a ha
    simp only [decide_eq_true_eq]
    rintro rfl
    rcases List.mem_append.1 ha with h | h
    · exact (complex_not hF _).2.2.2 h
    · revert h; decide
  have hd : ∀ i n, ∀ b, (QubitBasis.str ⟨BitVec.ofNat 64 i⟩ n).toList.head? = some b → decide (b ≠ '|') = false := by
    intro i n b hb
    have : (QubitBasis.str ⟨BitVec.ofNat 64 i⟩ n).toList.head? = some '|' := by simp [QubitBasis.str]
    rw [this] at hb
    simp [← Option.some.inj hb]
  have one : ∀ i j, i < 2 ^ q.nqubit → j < 2 ^ q.nqubit → fq i = fr j → i = j ∧ Close (q.psi i) (r.psi j) := by
    intro i j hi hj h
    simp only [hfq, hfr] at h
    have h : (complex F (q.coeff.getD i 0) ++ [' ']) ++ (QubitBasis.str ⟨BitVec.ofNat 64 i⟩ q.nqubit).toList =
        (complex F (r.coeff.getD j 0) ++ [' ']) ++ (QubitBasis.str ⟨BitVec.ofNat 64 j⟩ q.nqubit).toList := by
      rw [← hn] at h
      simpa only [List.append_assoc, List.singleton_append] using h
    obtain ⟨a, b⟩ := cut (p := fun c => decide (c ≠ '|')) (bar _) (bar _) (hd _ _) (hd _ _) h
    exact ⟨basis_str h64 hi hj b, complex_close hF (List.append_cancel_right a)⟩
  have mq : thr ≤ ‖q.psi I‖ ↔ I ∈ Lq := by
    rw [hLq, List.mem_filter, List.mem_range, hq.nbasis]
    simp only [decide_eq_true_eq]
    exact ⟨fun h => ⟨hI, h⟩, fun h => h.2⟩
  have mr : thr ≤ ‖r.psi I‖ ↔ I ∈ Lr := by
    rw [hLr, List.mem_filter, List.mem_range, hr.nbasis, ← hn]
    simp only [decide_eq_true_eq]
    exact ⟨fun h => ⟨hI, h⟩, fun h => h.2⟩
  have fwd : I ∈ Lq → I ∈ Lr ∧ Close (q.psi I) (r.psi I) := by
    intro h
    have : fq I ∈ Lr.map fr := by rw [← e1]; exact List.mem_map_of_mem h
    obtain ⟨j, hj, ej⟩ := List.mem_map.1 this
    obtain ⟨rfl, hc⟩ := one I j hI (br j hj) ej.symm
    exact ⟨hj, hc⟩
  have bwd : I ∈ Lr → I ∈ Lq := by
    intro h
    have : fr I ∈ Lq.map fq := by rw [e1]; exact List.mem_map_of_mem h
    obtain ⟨j, hj, ej⟩ := List.mem_map.1 this
    obtain ⟨rfl, -⟩ := one j I (bq j hj) hI ej
    exact hj
  exact ⟨by rw [mq, mr]; exact ⟨fun h => (fwd h).1, bwd⟩, fun h => (fwd (mq.1 h)).2⟩

/-- a concrete case of the printed forms -/
theorem C106_example (F : ℝ → Text) (hF : F 1 = "+1.000000".toList) :
    (∃ g, makeGate "CNOT" 12 3 0 = .ok g ∧ circuit [gX 0, g] = "[CNOT12_3 X0]".toList) ∧ operator F [(1, [gX 0]), (1, [gY 1])] = "+1.000000[X0]\n+1.000000[Y1]".toList ∧
    sqOperator F [(1, [2, 10], [1])] = " +1.000000 ( 2^ 10^ 1 )\n".toList := by
  have c1 : complex F 1 = "+1.000000".toList := by unfold complex; simp [hF]
  refine ⟨⟨_, makeGate_of_made (.CNOT 12 3 0 (by decide)), ?_⟩, ?_, ?_⟩
  · simp only [circuit, gate, List.map_cons, List.map_nil, gX]; decide
  · simp only [operator, List.map_cons, List.map_nil, c1, circuit, gate, gX, gY]; decide
  · simp only [sqOperator, List.flatMap_cons, List.flatMap_nil, List.map_cons, List.map_nil, c1]; decide

/-- a formatting that meets the contract exists, so that the theorems are not empty -/
theorem C106_format : ∃ F : ℝ → Text, FixedFmt F ∧ F 1 = "+1000000".toList := by
  refine ⟨fun x => (if 0 ≤ x then '+' else '-') :: dec (round (x * 1000000)).natAbs, ⟨by simp, ?_, ?_⟩, ?_⟩
  · intro x c hc
    rcases List.mem_cons.1 hc with h | h
    · split_ifs at h <;> simp [h]
    · exact .inl (dec_digit h)
  · intro x y h
    obtain ⟨h1, h2⟩ := List.cons.inj h
    have h2 := dec_inj h2
    have hr : round (x * 1000000) = round (y * 1000000) := by
      have pos : ∀ z : ℝ, 0 ≤ z → 0 ≤ round (z * 1000000) := fun z hz => by
        rw [round_eq]; exact Int.floor_nonneg.2 (by positivity)
      have neg : ∀ z : ℝ, z < 0 → round (z * 1000000) ≤ 0 := fun z hz => by
        rw [round_eq]
        have : ⌊z * 1000000 + 1 / 2⌋ < 1 := Int.floor_lt.2 (by push_cast; linarith)
        omega
      by_cases hx : 0 ≤ x <;> by_cases hy : 0 ≤ y
      · have := pos x hx; have := pos y hy; omega
      · rw [if_pos hx, if_neg hy] at h1; exact absurd h1 (by decide)
      · rw [if_neg hx, if_pos hy] at h1; exact absurd h1 (by decide)
      · have := neg x (by linarith); have := neg y (by linarith); omega
    have a := abs_sub_round (x * 1000000)
    have b := abs_sub_round (y * 1000000)
    rw [hr] at a
    rw [abs_le] at a b ⊢
    norm_num at *
    constructor <;> linarith [a.1, a.2, b.1, b.2]
  · have : round ((1 : ℝ) * 1000000) = 1000000 := by
      rw [one_mul]; exact_mod_cast round_intCast (α := ℝ) 1000000
    simp only [this]
    rw [if_pos (by norm_num)]
    decide

end Print
end QF
