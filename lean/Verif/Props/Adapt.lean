import Verif.Model.ADAPT
import Verif.Props.UccAnsatz

/-!
C85: the choice of operators in ADAPT-VQE.
-/
namespace QF

open SQOperator (DescSort jwTransform)
open QubitOperator (SortOracle)

namespace Adapt

/-- `m` is the first index whose entry has the largest modulus, and that entry is not zero -/
def FirstMax (gs : List ℝ) (m : ℕ) (g : ℝ) : Prop :=
  gs[m]? = some g ∧ g ≠ 0 ∧ (∀ (k : ℕ) (h : ℝ), gs[k]? = some h → |h| ≤ |g|) ∧ ∀ (k : ℕ) (h : ℝ), k < m → gs[k]? = some h → |h| < |g|

theorem FirstMax.unique {gs : List ℝ} {m m' : ℕ} {g g' : ℝ} (h : FirstMax gs m g) (h' : FirstMax gs m' g') : m = m' ∧ g = g' := by
  obtain ⟨a, _, b, c⟩ := h
  obtain ⟨a', _, b', c'⟩ := h'
  have : m = m' := by
    rcases lt_trichotomy m m' with hlt | h | hlt
    · exact absurd (c' m g hlt a) (not_lt.2 (b m' g' a'))
    · exact h
    · exact absurd (c m' g' hlt a') (not_lt.2 (b' m g a))
  subst this
  rw [a] at a'; cases a'; exact ⟨rfl, rfl⟩

theorem FirstMax.exists {gs : List ℝ} (h : ∃ g ∈ gs, g ≠ 0) : ∃ m g, FirstMax gs m g := by
  induction gs using List.reverseRecOn with
  | nil => simp at h
  | append_singleton gs x ih =>
    by_cases hg : ∃ g ∈ gs, g ≠ 0
    · obtain ⟨m, g, h1, h0, h2, h3⟩ := ih hg
      have hm : m < gs.length := (List.getElem?_eq_some_iff.1 h1).1
      by_cases hx : |g| < |x|
      · refine ⟨gs.length, x, by simp, ?_, ?_, ?_⟩
        · rintro rfl; simp at hx; exact absurd hx (not_lt.2 (abs_nonneg _))
        · intro k y hk
          rw [List.getElem?_append] at hk
          split at hk
          · exact (h2 k y hk).trans hx.le
          · rw [List.getElem?_singleton] at hk
            split at hk <;> simp_all
        · intro k y hlt hk
          rw [List.getElem?_append, if_pos hlt] at hk
          exact (h2 k y hk).trans_lt hx
      · refine ⟨m, g, by rw [List.getElem?_append, if_pos hm]; exact h1, h0, ?_, ?_⟩
        · intro k y hk
          rw [List.getElem?_append] at hk
          split at hk
          · exact h2 k y hk
          · rw [List.getElem?_singleton] at hk
            split at hk
            · cases hk; exact not_lt.1 hx
            · cases hk
        · intro k y hlt hk
          rw [List.getElem?_append, if_pos (hlt.trans hm)] at hk
          exact h3 k y hlt hk
    · have hz : ∀ g ∈ gs, g = 0 := by
        intro g hgm; by_contra h0; exact hg ⟨g, hgm, h0⟩
      have hx : x ≠ 0 := by
        obtain ⟨y, hy, h0⟩ := h
        rcases List.mem_append.1 hy with hy | hy
        · exact absurd (hz y hy) h0
        · simp at hy; exact hy ▸ h0
      refine ⟨gs.length, x, by simp, hx, ?_, ?_⟩
      · intro k y hk
        rw [List.getElem?_append] at hk
        split at hk
        · rw [hz y (List.mem_of_getElem? hk)]; simp
        · rw [List.getElem?_singleton] at hk
          split at hk <;> simp_all
      · intro k y hlt hk
        rw [List.getElem?_append, if_pos hlt] at hk
        rw [hz y (List.mem_of_getElem? hk)]
        simpa using hx

/-- what the scan has found after the gradients `gs` -/
def ScanOf (gs : List ℝ) (s : Scan) : Prop :=
  (s.idx = none ∧ s.largest = 0 ∧ s.second = none ∧ ∀ g ∈ gs, g = 0) ∨
  (∃ m, s.idx = some m ∧ FirstMax gs m s.largest ∧
    ((s.second = none ∧ ∀ g ∈ gs.take m, g = 0) ∨ ∃ g2 m2, s.second = some (g2, m2) ∧ FirstMax (gs.take m) m2 g2))

theorem scan_step {gs : List ℝ} {s : Scan} (h : ScanOf gs s) (x : ℝ) :
    ∃ s', scanStep s (x, gs.length) = .ok s' ∧ ScanOf (gs ++ [x]) s' := by
  unfold scanStep
  rcases h with ⟨h1, h2, h3, h4⟩ | ⟨m, h1, h2, h3⟩
  · rw [h2, abs_zero]
    by_cases hx : 0 < |x|
    · rw [if_pos hx, if_neg (lt_irrefl _)]
      refine ⟨_, rfl, .inr ⟨gs.length, rfl, ⟨by simp, by simpa using hx, ?_, ?_⟩, .inl ⟨h3, by simpa using h4⟩⟩⟩
      · intro k y hk
        rw [List.getElem?_append] at hk
        split at hk
        · rw [h4 y (List.mem_of_getElem? hk)]; simp
        · rw [List.getElem?_singleton] at hk
          split at hk <;> simp_all
      · intro k y hlt hk
        rw [List.getElem?_append, if_pos hlt] at hk
        rw [h4 y (List.mem_of_getElem? hk)]
        simpa using hx
    · rw [if_neg hx]
      have hx0 : x = 0 := by simpa using hx
      refine ⟨s, rfl, .inl ⟨h1, h2, h3, ?_⟩⟩
      intro g hg
      rcases List.mem_append.1 hg with hg | hg
      · exact h4 g hg
      · simp at hg; rw [hg, hx0]
  · obtain ⟨a, a0, b, c⟩ := id h2
    have hm : m < gs.length := (List.getElem?_eq_some_iff.1 a).1
    have ht : (gs ++ [x]).take m = gs.take m := by rw [List.take_append_of_le_length hm.le]
    by_cases hx : |s.largest| < |x|
    · rw [if_pos hx, if_pos (abs_pos.2 a0)]
      simp only [h1]
      refine ⟨_, rfl, .inr ⟨gs.length, rfl, ⟨by simp, ?_, ?_, ?_⟩, .inr ⟨s.largest, m, rfl, by simpa using h2⟩⟩⟩
      · rintro rfl; simp at hx; exact absurd hx (not_lt.2 (abs_nonneg _))
      · intro k y hk
        rw [List.getElem?_append] at hk
        split at hk
        · exact (b k y hk).trans hx.le
        · rw [List.getElem?_singleton] at hk
          split at hk <;> simp_all
      · intro k y hlt hk
        rw [List.getElem?_append, if_pos hlt] at hk
        exact (b k y hk).trans_lt hx
    · rw [if_neg hx]
      refine ⟨s, rfl, .inr ⟨m, h1, ⟨by rw [List.getElem?_append, if_pos hm]; exact a, a0, ?_, ?_⟩, by rw [ht]; exact h3⟩⟩
      · intro k y hk
        rw [List.getElem?_append] at hk
        split at hk
        · exact b k y hk
        · rw [List.getElem?_singleton] at hk
          split at hk
          · cases hk; exact not_lt.1 hx
          · cases hk
      · intro k y hlt hk
        rw [List.getElem?_append, if_pos (hlt.trans hm)] at hk
        exact c k y hlt hk

theorem scan_ok (gs : List ℝ) : ∃ s, gs.zipIdx.foldlM scanStep {} = .ok s ∧ ScanOf gs s := by
  induction gs using List.reverseRecOn with
  | nil => exact ⟨{}, by simp [pure, Except.pure], .inl ⟨rfl, rfl, rfl, by simp⟩⟩
  | append_singleton gs x ih =>
    obtain ⟨s, h1, h2⟩ := ih
    obtain ⟨s', h3, h4⟩ := scan_step h2 x
    refine ⟨s', ?_, h4⟩
    rw [List.zipIdx_append, List.foldlM_append, h1, except_ok_bind]
    simp only [List.zipIdx_cons, List.zipIdx_nil, List.foldlM_cons, Nat.zero_add]
    rw [h3, except_ok_bind]; rfl

theorem gradNorm_nonneg (gs : List ℝ) : 0 ≤ gradNorm gs := Real.sqrt_nonneg _

theorem sumSq_nonneg (gs : List ℝ) : 0 ≤ (gs.map fun g => g ^ 2).sum :=
  List.sum_nonneg (by intro x hx; obtain ⟨g, _, rfl⟩ := List.mem_map.1 hx; positivity)

theorem gradNorm_zero_iff (gs : List ℝ) : gradNorm gs = 0 ↔ ∀ g ∈ gs, g = 0 := by
  unfold gradNorm
  rw [Real.sqrt_eq_zero (sumSq_nonneg gs)]
  induction gs with
  | nil => simp
  | cons g gs ih =>
    rw [List.map_cons, List.sum_cons, add_eq_zero_iff_of_nonneg (sq_nonneg g) (sumSq_nonneg gs), ih]
    simp

/-- the step of `update_ansatz` once the gradients are known -/
theorem update_eq {o : DescSort} {so : SortOracle} {O : AdaptOpts} {st : AdaptState} {gs : List ℝ} {s : Scan} (hg : st.ucc.measureGradient3 o so = .ok gs)
    (hs : gs.zipIdx.foldlM scanStep {} = .ok s) (hn : |O.thresh| ≤ gradNorm gs) :
    updateAnsatz o so O st = (newOps O gs s).map fun ms => { st with
      gradNorms := st.gradNorms ++ [gradNorm gs]
      converged := false
      ucc := { st.ucc with tops := st.ucc.tops ++ ms, tamps := st.ucc.tamps ++ ms.map fun _ => 0 }
      nParams := st.nParams ++ [(st.ucc.tops ++ ms).length] } := by
  unfold updateAnsatz
  rw [hg, except_ok_bind, hs, except_ok_bind]
  simp only
  rw [if_neg (by rw [abs_of_nonneg (gradNorm_nonneg gs)]; exact not_lt.2 hn)]
  cases newOps O gs s <;> rfl

/-- C85: with the default options `update_ansatz` appends, with amplitude zero, exactly the first operator whose gradient has the largest modulus,
if the norm of the gradients is at least the threshold and some gradient is not zero (always true for a nonzero threshold). -/
theorem C85_select (o : DescSort) (so : SortOracle) (O : AdaptOpts) (hc : O.cumulative = false) (he : O.addEquiv = false) (st : AdaptState) (gs : List ℝ)
    (hg : st.ucc.measureGradient3 o so = .ok gs) (hn : |O.thresh| ≤ gradNorm gs) (h0 : ∃ g ∈ gs, g ≠ 0) :
    ∃ m g, FirstMax gs m g ∧ updateAnsatz o so O st = .ok { st with
      gradNorms := st.gradNorms ++ [gradNorm gs]
      converged := false
      ucc := { st.ucc with tops := st.ucc.tops ++ [m], tamps := st.ucc.tamps ++ [0] }
      nParams := st.nParams ++ [st.ucc.tops.length + 1] } := by
  obtain ⟨s, h1, h2⟩ := scan_ok gs
  rw [update_eq hg h1 hn]
  rcases h2 with ⟨_, _, _, h⟩ | ⟨m, e1, e2, _⟩
  · obtain ⟨g, hm, h0⟩ := h0
    exact absurd (h g hm) h0
  · refine ⟨m, _, e2, ?_⟩
    unfold newOps
    rw [hc, he, e1]
    simp [Except.map]

/-- C85: the convergence test.  The run is converged exactly if the norm is below the threshold; nothing is appended then, and the final energy is the last one.  In the
first iteration there is no energy yet and the call raises `IndexError`. -/
theorem C85_converged (o : DescSort) (so : SortOracle) (O : AdaptOpts) (st : AdaptState) (gs : List ℝ)
    (hg : st.ucc.measureGradient3 o so = .ok gs) (hn : gradNorm gs < |O.thresh|) :
    updateAnsatz o so O st = match st.energies.getLast? with
      | none => .error .indexError
      | some e => .ok { st with gradNorms := st.gradNorms ++ [gradNorm gs], converged := true, finalEnergy := some e } := by
  obtain ⟨s, h1, _⟩ := scan_ok gs
  unfold updateAnsatz
  rw [hg, except_ok_bind, h1, except_ok_bind]
  simp only
  rw [if_pos (by rw [abs_of_nonneg (gradNorm_nonneg gs)]; exact hn)]
  cases st.energies.getLast? <;> rfl

/-- C85: with a threshold of zero and gradients that all vanish (or an empty pool), the default options raise `UnboundLocalError`. -/
theorem C85_stationary (o : DescSort) (so : SortOracle) (O : AdaptOpts) (hc : O.cumulative = false) (hθ : O.thresh = 0) (st : AdaptState) (gs : List ℝ)
    (hg : st.ucc.measureGradient3 o so = .ok gs) (h0 : ∀ g ∈ gs, g = 0) : updateAnsatz o so O st = .error .nameError := by
  obtain ⟨s, h1, h2⟩ := scan_ok gs
  rw [update_eq hg h1 (by rw [hθ, abs_zero]; exact gradNorm_nonneg gs)]
  rcases h2 with ⟨e, _⟩ | ⟨m, _, e2, _⟩
  · unfold newOps
    rw [hc, e]; rfl
  · exact absurd (h0 _ (List.mem_of_getElem? e2.1)) e2.2.1

/-- C85: what `add_equiv_ops` does.  The second operator considered is the first one with the largest gradient among those *before* the chosen one; an operator
after it, even with the same gradient, is never added.  If all earlier gradients vanish the call raises `UnboundLocalError`. -/
theorem C85_equiv (o : DescSort) (so : SortOracle) (O : AdaptOpts) (hc : O.cumulative = false) (he : O.addEquiv = true) (st : AdaptState) (gs : List ℝ)
    (hg : st.ucc.measureGradient3 o so = .ok gs) (hn : |O.thresh| ≤ gradNorm gs) (m : ℕ) (g : ℝ) (hm : FirstMax gs m g) :
    ((∀ k h, k < m → gs[k]? = some h → h = 0) → updateAnsatz o so O st = .error .nameError) ∧
    (∀ m2 g2, FirstMax (gs.take m) m2 g2 → ∃ st', updateAnsatz o so O st = .ok st' ∧ m2 < m ∧ |g2| < |g| ∧
      (|g| - |g2| < 1e-5 → st'.ucc.tops = st.ucc.tops ++ [m, m2] ∧ st'.ucc.tamps = st.ucc.tamps ++ [0, 0]) ∧
      (1e-5 ≤ |g| - |g2| → st'.ucc.tops = st.ucc.tops ++ [m] ∧ st'.ucc.tamps = st.ucc.tamps ++ [0])) := by
  obtain ⟨s, h1, h2⟩ := scan_ok gs
  rw [update_eq hg h1 hn]
  rcases h2 with ⟨_, _, _, h⟩ | ⟨m', e1, e2, e3⟩
  · exact absurd (h _ (List.mem_of_getElem? hm.1)) hm.2.1
  · obtain ⟨rfl, rfl⟩ := hm.unique e2
    unfold newOps
    rw [hc, he, e1]
    constructor
    · intro hz
      rcases e3 with ⟨e3, _⟩ | ⟨g2, m2, _, e4⟩
      · simp [e3, Except.map]
      · have hk := e4.1
        rw [List.getElem?_take] at hk
        split at hk
        · rename_i hlt; exact absurd (hz m2 g2 hlt hk) e4.2.1
        · cases hk
    · intro m2 g2 h4
      rcases e3 with ⟨_, e3⟩ | ⟨g3, m3, e3, e4⟩
      · exact absurd (e3 _ (List.mem_of_getElem? h4.1)) h4.2.1
      · obtain ⟨rfl, rfl⟩ := h4.unique e4
        have hk := e4.1
        rw [List.getElem?_take] at hk
        have hlt : m2 < m := by
          by_contra hlt
          rw [if_neg hlt] at hk; cases hk
        rw [if_pos hlt] at hk
        simp only [e3, Bool.false_eq_true, if_false, if_true]
        have hd := hm.2.2.2 m2 g2 hlt hk
        by_cases hx : |s.largest| - |g2| < 1e-5
        · rw [if_pos hx]
          exact ⟨_, rfl, hlt, hd, fun _ => ⟨rfl, rfl⟩, fun h => absurd hx (not_lt.2 h)⟩
        · rw [if_neg hx]
          exact ⟨_, rfl, hlt, hd, fun h => absurd h hx, fun _ => ⟨rfl, rfl⟩⟩

/-- the first gradients of a degenerate pair: with gradients `[1, 1]` the option `add_equiv_ops` does not add the second operator but raises -/
theorem C85_equiv_example : FirstMax [1, 1] 0 1 ∧ ∀ (k : ℕ) (h : ℝ), k < 0 → ([1, 1] : List ℝ)[k]? = some h → h = 0 := by
  refine ⟨⟨rfl, one_ne_zero, ?_, by omega⟩, by omega⟩
  intro k h hk
  rcases k with _ | _ | k
  · simp at hk; simp [← hk]
  · simp at hk; simp [← hk]
  · simp at hk

/-! ### the cumulative threshold -/

theorem cum_above (θ : ℝ) (l : List (ℝ × ℕ)) (hl : ∀ p ∈ l, 0 ≤ p.1) (S : ℝ) (acc : List ℕ) (h : θ * θ < S) :
    (l.foldl (cumStep θ) (S, acc)).2 = (l.map Prod.snd).reverse ++ acc := by
  induction l generalizing S acc with
  | nil => simp
  | cons p l ih =>
    have hp := hl p (by simp)
    rw [List.foldl_cons]
    unfold cumStep
    simp only
    rw [if_pos (by linarith)]
    have := ih (fun p hp => hl p (by simp [hp])) (S + p.1) (p.2 :: acc) (by linarith)
    unfold cumStep at this
    rw [this]; simp

theorem cum_split (θ : ℝ) (l : List (ℝ × ℕ)) (hl : ∀ p ∈ l, 0 ≤ p.1) (S : ℝ) (acc : List ℕ) (h : S ≤ θ * θ) :
    ∃ D R, l = D ++ R ∧ (l.foldl (cumStep θ) (S, acc)).2 = (R.map Prod.snd).reverse ++ acc ∧ S + (D.map Prod.fst).sum ≤ θ * θ ∧
      ∀ r R', R = r :: R' → θ * θ < S + (D.map Prod.fst).sum + r.1 := by
  induction l generalizing S acc with
  | nil => exact ⟨[], [], rfl, by simp, by simpa using h, by simp⟩
  | cons p l ih =>
    have hp := hl p (by simp)
    by_cases hx : θ * θ < S + p.1
    · refine ⟨[], p :: l, rfl, ?_, by simpa using h, ?_⟩
      · rw [List.foldl_cons]
        have e : cumStep θ (S, acc) p = (S + p.1, p.2 :: acc) := by unfold cumStep; simp only; rw [if_pos hx]
        rw [e, cum_above θ l (fun p hp => hl p (by simp [hp])) _ _ hx]; simp
      · intro r R' e; cases e; simpa using hx
    · have e : cumStep θ (S, acc) p = (S + p.1, acc) := by unfold cumStep; simp only; rw [if_neg hx]
      obtain ⟨D, R, h1, h2, h3, h4⟩ := ih (fun p hp => hl p (by simp [hp])) (S + p.1) acc (not_lt.1 hx)
      refine ⟨p :: D, R, by rw [h1]; rfl, by rw [List.foldl_cons, e, h2], ?_, ?_⟩
      · rw [List.map_cons, List.sum_cons]; linarith
      · intro r R' hR
        have := h4 r R' hR
        rw [List.map_cons, List.sum_cons]; linarith

theorem gradsSq_perm (gs : List ℝ) : (gradsSq gs).Perm (gs.zipIdx.map fun p => (p.1 * p.1, p.2)) := by
  unfold gradsSq; exact List.perm_insertionSort _ _

theorem gradsSq_sorted (gs : List ℝ) : (gradsSq gs).Pairwise fun a b => a.1 ≤ b.1 := by
  classical
  unfold gradsSq
  have : Std.Total (fun a b : ℝ × ℕ => a.1 < b.1 ∨ (a.1 = b.1 ∧ a.2 ≤ b.2)) := ⟨by
    intro a b
    rcases lt_trichotomy a.1 b.1 with h | h | h
    · exact .inl (.inl h)
    · rcases le_total a.2 b.2 with h' | h'
      · exact .inl (.inr ⟨h, h'⟩)
      · exact .inr (.inr ⟨h.symm, h'⟩)
    · exact .inr (.inl h)⟩
  have : IsTrans (ℝ × ℕ) (fun a b : ℝ × ℕ => a.1 < b.1 ∨ (a.1 = b.1 ∧ a.2 ≤ b.2)) := ⟨by
    intro a b c h1 h2
    rcases h1 with h1 | ⟨h1, h1'⟩ <;> rcases h2 with h2 | ⟨h2, h2'⟩
    · exact .inl (h1.trans h2)
    · exact .inl (h2 ▸ h1)
    · exact .inl (h1 ▸ h2)
    · exact .inr ⟨h1.trans h2, h1'.trans h2'⟩⟩
  refine (List.pairwise_insertionSort _ _).imp fun {a b} h => ?_
  rcases h with h | ⟨h, _⟩
  · exact h.le
  · exact h.le

theorem gradsSq_mem {gs : List ℝ} {p : ℝ × ℕ} (h : p ∈ gradsSq gs) : ∃ g, gs[p.2]? = some g ∧ p.1 = g * g := by
  obtain ⟨q, hq, rfl⟩ := List.mem_map.1 ((gradsSq_perm gs).mem_iff.1 h)
  have := List.mem_zipIdx_iff_getElem?.1 hq
  exact ⟨q.1, this, rfl⟩

theorem sq_eq_sum {gs : List ℝ} (D : List (ℝ × ℕ)) (h : ∀ p ∈ D, p ∈ gradsSq gs) :
    (D.map Prod.fst).sum = ((D.map Prod.snd).map fun k => (gs[k]?.getD 0) ^ 2).sum := by
  induction D with
  | nil => simp
  | cons p D ih =>
    obtain ⟨g, h1, h2⟩ := gradsSq_mem (h p (by simp))
    simp only [List.map_cons, List.sum_cons]
    rw [ih fun p hp => h p (by simp [hp]), h1, h2, Option.getD_some, pow_two]

/-- C85: with `use_cumulative_thresh`, the operators of the pool are split into those left out and those appended (each once, with amplitude zero): the
gradients left out have together a norm of at most the threshold, no smaller gradient is appended, the appended ones are in the order of decreasing
modulus, and leaving out one more would exceed the threshold. -/
theorem C85_cumulative (o : DescSort) (so : SortOracle) (O : AdaptOpts) (hc : O.cumulative = true) (st : AdaptState) (gs : List ℝ)
    (hg : st.ucc.measureGradient3 o so = .ok gs) (hn : |O.thresh| ≤ gradNorm gs) :
    ∃ (out ms : List ℕ) (st' : AdaptState), updateAnsatz o so O st = .ok st' ∧ st'.ucc.tops = st.ucc.tops ++ ms ∧ st'.ucc.tamps = st.ucc.tamps ++ ms.map (fun _ => 0) ∧
      (out ++ ms).Perm (List.range gs.length) ∧
      (out.map fun k => (gs[k]?.getD 0) ^ 2).sum ≤ O.thresh ^ 2 ∧
      (∀ k ∈ out, ∀ m ∈ ms, |gs[k]?.getD 0| ≤ |gs[m]?.getD 0|) ∧
      ms.Pairwise (fun a b => |gs[b]?.getD 0| ≤ |gs[a]?.getD 0|) ∧
      ∀ m, ms.getLast? = some m → O.thresh ^ 2 < (out.map fun k => (gs[k]?.getD 0) ^ 2).sum + (gs[m]?.getD 0) ^ 2 := by
  obtain ⟨s, h1, _⟩ := scan_ok gs
  have hnn : ∀ p ∈ gradsSq gs, 0 ≤ p.1 := by
    intro p hp
    obtain ⟨g, _, h⟩ := gradsSq_mem hp
    rw [h]; exact mul_self_nonneg g
  obtain ⟨D, R, e1, e2, e3, e4⟩ := cum_split O.thresh (gradsSq gs) hnn 0 [] (mul_self_nonneg _)
  have hD : ∀ p ∈ D, p ∈ gradsSq gs := fun p hp => by rw [e1]; simp [hp]
  have hR : ∀ p ∈ R, p ∈ gradsSq gs := fun p hp => by rw [e1]; simp [hp]
  have habs : ∀ p ∈ gradsSq gs, ∀ q ∈ gradsSq gs, p.1 ≤ q.1 → |gs[p.2]?.getD 0| ≤ |gs[q.2]?.getD 0| := by
    intro p hp q hq hle
    obtain ⟨a, a1, a2⟩ := gradsSq_mem hp
    obtain ⟨b, b1, b2⟩ := gradsSq_mem hq
    rw [a1, b1, Option.getD_some, Option.getD_some]
    exact sq_le_sq.1 (by nlinarith)
  have hsort := gradsSq_sorted gs
  rw [e1, List.pairwise_append] at hsort
  obtain ⟨_, hs2, hs3⟩ := hsort
  have hnew : newOps O gs s = .ok (R.map Prod.snd).reverse := by
    unfold newOps
    rw [if_pos hc, e2, List.append_nil]
  have hu := update_eq hg h1 hn
  rw [hnew] at hu
  refine ⟨D.map Prod.snd, (R.map Prod.snd).reverse, _, hu, rfl, rfl, ?_, ?_, ?_, ?_, ?_⟩
  · have h5 : ((gradsSq gs).map Prod.snd).Perm (List.range gs.length) := by
      refine ((gradsSq_perm gs).map Prod.snd).trans ?_
      rw [List.map_map]
      show (gs.zipIdx.map Prod.snd).Perm _
      rw [List.zipIdx_map_snd, List.range'_eq_map_range]
      simp
    refine .trans ?_ h5
    rw [e1, List.map_append]
    exact (List.reverse_perm _).append_left _
  · rw [← sq_eq_sum D hD]; nlinarith
  · intro k hk m hm
    obtain ⟨p, hp, rfl⟩ := List.mem_map.1 hk
    obtain ⟨q, hq, rfl⟩ := List.mem_map.1 (List.mem_reverse.1 hm)
    exact habs p (hD p hp) q (hR q hq) (hs3 p hp q hq)
  · rw [List.pairwise_reverse, List.pairwise_map]
    exact (hs2.imp_of_mem fun {a b} ha hb h => habs a (hR a ha) b (hR b hb) h)
  · intro m hm
    rw [List.getLast?_reverse, List.head?_map] at hm
    cases R with
    | nil => simp at hm
    | cons r R' =>
      simp only [List.head?_cons, Option.map_some, Option.some.injEq] at hm
      subst hm
      have := e4 r R' rfl
      obtain ⟨g, g1, g2⟩ := gradsSq_mem (hR r (by simp))
      rw [← sq_eq_sum D hD, g1, Option.getD_some]
      nlinarith

end Adapt
end QF
