import Verif.Model.Sparse
import Verif.Lemmas.ComputerOps

namespace QF

/-! ### maps -/

theorem amGet_amSet {V : Type} (k : ℕ) (v : V) (m : List (ℕ × V)) (k' : ℕ) :
    amGet (amSet k v m) k' = if k' = k then some v else amGet m k' := by
  induction m with
  | nil => simp [amSet, amGet]
  | cons e m ih =>
    obtain ⟨a, b⟩ := e
    unfold amSet
    by_cases h1 : k < a
    · rw [if_pos h1]; simp [amGet]
    · rw [if_neg h1]
      by_cases h2 : k = a
      · rw [if_pos h2]; subst h2; simp only [amGet]
        by_cases h3 : k' = k <;> simp [h3]
      · rw [if_neg h2]
        simp only [amGet, ih]
        by_cases h3 : k' = a
        · subst h3; simp [Ne.symm h2]
        · simp [h3]

theorem amGet_amErase {V : Type} (m : List (ℕ × V)) (k k' : ℕ) :
    amGet (amErase m k) k' = if k' = k then none else amGet m k' := by
  induction m with
  | nil => simp [amErase, amGet]
  | cons e m ih =>
    obtain ⟨a, b⟩ := e
    unfold amErase at ih ⊢
    rw [List.filter_cons]
    by_cases h1 : a = k
    · subst h1
      simp only [ne_eq, not_true_eq_false, decide_false, Bool.false_eq_true, if_false, ih, amGet]
      by_cases h3 : k' = a <;> simp [h3]
    · simp only [ne_eq, h1, not_false_eq_true, decide_true, if_true, amGet, ih]
      by_cases h3 : k' = a
      · subst h3; simp [h1]
      · simp [h3]

/-- strictly increasing keys -/
def AmOk {V : Type} (m : List (ℕ × V)) : Prop := m.Pairwise fun a b => a.1 < b.1

theorem mem_amSet {V : Type} {k : ℕ} {v : V} {m : List (ℕ × V)} {e : ℕ × V} (h : e ∈ amSet k v m) : e = (k, v) ∨ e ∈ m := by
  induction m with
  | nil => simp [amSet] at h; exact .inl h
  | cons x m ih =>
    obtain ⟨a, b⟩ := x
    unfold amSet at h
    by_cases h1 : k < a
    · rw [if_pos h1] at h; simpa using h
    · rw [if_neg h1] at h
      by_cases h2 : k = a
      · rw [if_pos h2] at h
        rcases List.mem_cons.1 h with h | h
        · exact .inl h
        · exact .inr (by simp [h])
      · rw [if_neg h2] at h
        rcases List.mem_cons.1 h with h | h
        · exact .inr (by simp [h])
        · rcases ih h with h | h
          · exact .inl h
          · exact .inr (by simp [h])

theorem AmOk.set {V : Type} {k : ℕ} {v : V} {m : List (ℕ × V)} (h : AmOk m) : AmOk (amSet k v m) := by
  induction m with
  | nil => simp [amSet, AmOk]
  | cons x m ih =>
    obtain ⟨a, b⟩ := x
    have hs := List.pairwise_cons.1 h
    unfold amSet
    by_cases h1 : k < a
    · rw [if_pos h1]
      refine List.pairwise_cons.2 ⟨?_, h⟩
      intro y hy
      rcases List.mem_cons.1 hy with rfl | hy
      · exact h1
      · exact lt_trans h1 (hs.1 y hy)
    · rw [if_neg h1]
      by_cases h2 : k = a
      · rw [if_pos h2]; subst h2
        exact List.pairwise_cons.2 hs
      · rw [if_neg h2]
        refine List.pairwise_cons.2 ⟨?_, ih hs.2⟩
        intro y hy
        rcases mem_amSet hy with rfl | hy
        · show a < k; omega
        · exact hs.1 y hy

theorem AmOk.erase {V : Type} {k : ℕ} {m : List (ℕ × V)} (h : AmOk m) : AmOk (amErase m k) := List.Pairwise.filter _ h

theorem amGet_mem {V : Type} {m : List (ℕ × V)} (h : AmOk m) {e : ℕ × V} (he : e ∈ m) : amGet m e.1 = some e.2 := by
  induction m with
  | nil => simp at he
  | cons x m ih =>
    obtain ⟨a, b⟩ := x
    have hs := List.pairwise_cons.1 h
    rcases List.mem_cons.1 he with rfl | he
    · simp [amGet]
    · have := hs.1 e he
      simp only [amGet]
      rw [if_neg (by omega), ih hs.2 he]

theorem mem_of_amGet {V : Type} {m : List (ℕ × V)} {k : ℕ} {v : V} (h : amGet m k = some v) : (k, v) ∈ m := by
  induction m with
  | nil => simp [amGet] at h
  | cons x m ih =>
    obtain ⟨a, b⟩ := x
    simp only [amGet] at h
    by_cases h1 : k = a
    · rw [if_pos h1] at h; cases h; subst h1; simp
    · rw [if_neg h1] at h; simp [ih h]

/-- sums over the entries of a map are sums over all indices -/
theorem am_sum {V : Type} {m : List (ℕ × V)} (h : AmOk m) {N : ℕ} (hN : ∀ e ∈ m, e.1 < N) (f : ℕ → Option V → ℂ) (f0 : ∀ k, f k none = 0) :
    (m.map fun e => f e.1 (some e.2)).sum = ∑ k ∈ Finset.range N, f k (amGet m k) := by
  induction m with
  | nil => simp [amGet, f0]
  | cons x m ih =>
    obtain ⟨a, b⟩ := x
    have hs := List.pairwise_cons.1 h
    rw [List.map_cons, List.sum_cons, ih hs.2 (fun e he => hN e (by simp [he]))]
    have ha : a < N := hN (a, b) (by simp)
    have hnone : amGet m a = none := by
      rcases hg : amGet m a with _ | v
      · rfl
      · have := hs.1 _ (mem_of_amGet hg); simp at this
    have : ∀ k, f k (amGet ((a, b) :: m) k) = (if k = a then f a (some b) else 0) + f k (amGet m k) := by
      intro k
      simp only [amGet]
      by_cases h1 : k = a
      · subst h1; simp [hnone, f0]
      · simp [h1]
    rw [Finset.sum_congr rfl (fun k _ => this k), Finset.sum_add_distrib, Finset.sum_ite_eq' , if_pos (Finset.mem_range.2 ha)]

/-! ### matrices -/

/-- well-formed sparse matrix with indices below `N` -/
structure SMat.OK (N : ℕ) (M : SMat) : Prop where
  rows : AmOk M
  cols : ∀ e ∈ M, AmOk e.2
  rlt : ∀ e ∈ M, e.1 < N
  clt : ∀ e ∈ M, ∀ x ∈ e.2, x.1 < N

theorem SMat.OK.nil (N : ℕ) : SMat.OK N [] := ⟨by simp [AmOk], by simp, by simp, by simp⟩

theorem SMat.row_ok {N : ℕ} {M : SMat} (h : M.OK N) (I : ℕ) : AmOk (M.row I) ∧ ∀ x ∈ M.row I, x.1 < N := by
  unfold SMat.row
  rcases hg : amGet M I with _ | r
  · simp [AmOk]
  · have := mem_of_amGet hg
    exact ⟨h.cols _ this, h.clt _ this⟩

theorem SMat.get_set (M : SMat) (I J : ℕ) (z : ℂ) (I' J' : ℕ) :
    (M.set I J z).get I' J' = if I' = I ∧ J' = J then z else M.get I' J' := by
  unfold SMat.get SMat.set
  by_cases h1 : I' = I
  · subst h1
    unfold SMat.row
    rw [amGet_amSet, if_pos rfl]
    simp only [SVec.get, Option.getD_some, amGet_amSet]
    by_cases h2 : J' = J <;> simp [h2]
  · conv_lhs => unfold SMat.row
    rw [amGet_amSet, if_neg h1]
    simp [h1, SMat.row]

theorem SMat.get_erase (M : SMat) (I J : ℕ) (I' J' : ℕ) :
    (M.erase I J).get I' J' = if I' = I ∧ J' = J then 0 else M.get I' J' := by
  unfold SMat.get SMat.erase
  by_cases h1 : I' = I
  · subst h1
    unfold SMat.row
    rw [amGet_amSet, if_pos rfl]
    simp only [SVec.get, Option.getD_some, amGet_amErase]
    by_cases h2 : J' = J <;> simp [h2]
  · conv_lhs => unfold SMat.row
    rw [amGet_amSet, if_neg h1]
    simp [h1, SMat.row]

theorem SMat.OK.set {N : ℕ} {M : SMat} (h : M.OK N) {I J : ℕ} (hI : I < N) (hJ : J < N) (z : ℂ) : (M.set I J z).OK N := by
  obtain ⟨r1, r2⟩ := SMat.row_ok h I
  refine ⟨h.rows.set, ?_, ?_, ?_⟩
  · intro e he
    rcases mem_amSet he with rfl | he
    · exact r1.set
    · exact h.cols e he
  · intro e he
    rcases mem_amSet he with rfl | he
    · exact hI
    · exact h.rlt e he
  · intro e he x hx
    rcases mem_amSet he with rfl | he
    · rcases mem_amSet hx with rfl | hx
      · exact hJ
      · exact r2 x hx
    · exact h.clt e he x hx

theorem SMat.OK.erase {N : ℕ} {M : SMat} (h : M.OK N) {I : ℕ} (hI : I < N) (J : ℕ) : (M.erase I J).OK N := by
  obtain ⟨r1, r2⟩ := SMat.row_ok h I
  refine ⟨h.rows.set, ?_, ?_, ?_⟩
  · intro e he
    rcases mem_amSet he with rfl | he
    · exact r1.erase
    · exact h.cols e he
  · intro e he
    rcases mem_amSet he with rfl | he
    · exact hI
    · exact h.rlt e he
  · intro e he x hx
    rcases mem_amSet he with rfl | he
    · exact r2 x (List.mem_filter.1 hx).1
    · exact h.clt e he x hx

theorem SMat.get_eq_zero {N : ℕ} {M : SMat} (h : M.OK N) {I J : ℕ} (hI : N ≤ I ∨ N ≤ J) : M.get I J = 0 := by
  unfold SMat.get SVec.get
  rcases hI with hI | hJ
  · unfold SMat.row
    rcases hg : amGet M I with _ | r
    · simp [amGet]
    · have := h.rlt _ (mem_of_amGet hg); simp at this; omega
  · rcases hg : amGet (M.row I) J with _ | z
    · simp
    · have := (SMat.row_ok h I).2 _ (mem_of_amGet hg); simp at this; omega

theorem SMat.get_row {N : ℕ} {M : SMat} (h : M.OK N) {e : ℕ × SVec} (he : e ∈ M) (J : ℕ) : M.get e.1 J = SVec.get e.2 J := by
  unfold SMat.get SMat.row
  rw [amGet_mem h.rows he]; rfl

/-- a fold of steps, each of which makes one element agree with a function -/
theorem foldl_steps {N : ℕ} {W : Type} (F : ℕ → ℕ → ℂ) (pos : W → ℕ × ℕ) (step : SMat → W → SMat) : ∀ (ws : List W) (M : SMat), M.OK N →
    (∀ w ∈ ws, ∀ M : SMat, M.OK N → (step M w).OK N ∧
      ∀ I J, (step M w).get I J = if I = (pos w).1 ∧ J = (pos w).2 then F I J else M.get I J) →
    (ws.foldl step M).OK N ∧
    ∀ I J, (((I, J) ∈ ws.map pos) → (ws.foldl step M).get I J = F I J) ∧
      (((I, J) ∉ ws.map pos) → (ws.foldl step M).get I J = M.get I J) := by
  intro ws
  induction ws with
  | nil => intro M hM _; exact ⟨hM, fun I J => ⟨by simp, by simp⟩⟩
  | cons w ws ih =>
    intro M hM hw
    obtain ⟨h1, h2⟩ := hw w (by simp) M hM
    obtain ⟨i1, i2⟩ := ih (step M w) h1 (fun w hw' => hw w (by simp [hw']))
    refine ⟨i1, fun I J => ⟨?_, ?_⟩⟩
    · intro hz
      rw [List.foldl_cons]
      by_cases hex : (I, J) ∈ ws.map pos
      · exact (i2 I J).1 hex
      · rw [(i2 I J).2 hex, h2]
        rw [List.map_cons] at hz
        rcases List.mem_cons.1 hz with h | h
        · rw [if_pos]; rw [← h]; exact ⟨rfl, rfl⟩
        · exact absurd h hex
    · intro hex
      rw [List.map_cons, List.mem_cons, not_or] at hex
      rw [List.foldl_cons, (i2 I J).2 hex.2, h2, if_neg]
      rintro ⟨rfl, rfl⟩
      exact hex.1 rfl

/-- a fold of writes that agree with a function -/
theorem foldl_writes {N : ℕ} (F : ℕ → ℕ → ℂ) (ws : List (ℕ × ℕ × ℂ)) (M : SMat) (hM : M.OK N)
    (hw : ∀ w ∈ ws, w.1 < N ∧ w.2.1 < N ∧ w.2.2 = F w.1 w.2.1) :
    (ws.foldl (fun (M : SMat) w => M.set w.1 w.2.1 w.2.2) M).OK N ∧
    ∀ I J, (((I, J) ∈ ws.map fun w => (w.1, w.2.1)) → (ws.foldl (fun (M : SMat) w => M.set w.1 w.2.1 w.2.2) M).get I J = F I J) ∧
      (((I, J) ∉ ws.map fun w => (w.1, w.2.1)) → (ws.foldl (fun (M : SMat) w => M.set w.1 w.2.1 w.2.2) M).get I J = M.get I J) := by
  refine foldl_steps F (fun w => (w.1, w.2.1)) _ ws M hM ?_
  intro w hw' M hM
  obtain ⟨h1, h2, h3⟩ := hw w hw'
  refine ⟨hM.set h1 h2 _, fun I J => ?_⟩
  rw [SMat.get_set]
  by_cases h : I = w.1 ∧ J = w.2.1
  · rw [if_pos h, if_pos h, h3, h.1, h.2]
  · rw [if_neg h, if_neg h]

/-- what survives the 1e-16 test -/
noncomputable def chop (z : ℂ) : ℂ := open Classical in if ‖z‖ > 1e-16 then z else 0

theorem chop_near (z : ℂ) : ‖chop z - z‖ ≤ 1e-16 := by
  unfold chop
  by_cases h : ‖z‖ > 1e-16
  · rw [if_pos h]; simp; norm_num
  · rw [if_neg h]; simpa using h

/-! ### identity -/

theorem identity_ok (N : ℕ) : (SMat.identity N).OK N ∧ ∀ I J, (SMat.identity N).get I J = if I = J ∧ I < N then 1 else 0 := by
  have hw : SMat.identity N = ((List.range N).map fun I => (I, I, (1 : ℂ))).foldl (fun (M : SMat) w => M.set w.1 w.2.1 w.2.2) [] := by
    unfold SMat.identity; rw [List.foldl_map]
  obtain ⟨h1, h2⟩ := foldl_writes (N := N) (fun _ _ => 1) ((List.range N).map fun I => (I, I, (1 : ℂ))) [] (.nil N) (by
    intro w hw
    obtain ⟨I, hI, rfl⟩ := List.mem_map.1 hw
    have := List.mem_range.1 hI
    exact ⟨this, this, rfl⟩)
  rw [← hw] at h1 h2
  refine ⟨h1, fun I J => ?_⟩
  by_cases h : I = J ∧ I < N
  · rw [if_pos h]
    refine (h2 I J).1 ?_
    rw [List.map_map]
    exact List.mem_map.2 ⟨I, List.mem_range.2 h.2, by simp [h.1]⟩
  · rw [if_neg h, (h2 I J).2]
    · simp [SMat.get, SMat.row, SVec.get, amGet]
    · rw [List.map_map]
      rintro hm
      obtain ⟨K, hK, e⟩ := List.mem_map.1 hm
      simp at e
      exact h ⟨e.1 ▸ e.2 ▸ rfl, e.1 ▸ List.mem_range.1 hK⟩

/-! ### left_multiply -/

theorem uniqueJs_mem (M : SMat) (J : ℕ) : J ∈ M.uniqueJs ↔ ∃ e ∈ M, ∃ x ∈ e.2, x.1 = J := by
  have inner : ∀ (r : SVec) (js : List ℕ), J ∈ r.foldl (fun js j => if j.1 ∈ js then js else js ++ [j.1]) js ↔ J ∈ js ∨ ∃ x ∈ r, x.1 = J := by
    intro r
    induction r with
    | nil => intro js; simp
    | cons x r ih =>
      intro js
      rw [List.foldl_cons, ih]
      by_cases h : x.1 ∈ js
      · rw [if_pos h]
        constructor
        · rintro (h1 | ⟨y, hy, e⟩)
          · exact .inl h1
          · exact .inr ⟨y, by simp [hy], e⟩
        · rintro (h1 | ⟨y, hy, e⟩)
          · exact .inl h1
          · rcases List.mem_cons.1 hy with rfl | hy
            · exact .inl (e ▸ h)
            · exact .inr ⟨y, hy, e⟩
      · rw [if_neg h]
        simp only [List.mem_append, List.mem_cons, List.not_mem_nil, or_false]
        constructor
        · rintro ((h1 | h1) | ⟨y, hy, e⟩)
          · exact .inl h1
          · exact .inr ⟨x, .inl rfl, h1.symm⟩
          · exact .inr ⟨y, .inr hy, e⟩
        · rintro (h1 | ⟨y, hy, e⟩)
          · exact .inl (.inl h1)
          · rcases hy with rfl | hy
            · exact .inl (.inr e.symm)
            · exact .inr ⟨y, hy, e⟩
  have outer : ∀ (M : SMat) (js : List ℕ), J ∈ M.foldl (fun js i => i.2.foldl (fun js j => if j.1 ∈ js then js else js ++ [j.1]) js) js ↔
      J ∈ js ∨ ∃ e ∈ M, ∃ x ∈ e.2, x.1 = J := by
    intro M
    induction M with
    | nil => intro js; simp
    | cons e M ih =>
      intro js
      rw [List.foldl_cons, ih, inner]
      simp only [List.mem_cons, exists_eq_or_imp, or_assoc]
  have := outer M []
  simpa [SMat.uniqueJs] using this

theorem foldl_add_sum {W : Type} (r : List W) (f : W → ℂ) (a : ℂ) : r.foldl (fun v k => v + f k) a = a + (r.map f).sum := by
  induction r generalizing a with
  | nil => simp
  | cons x r ih => rw [List.foldl_cons, ih, List.map_cons, List.sum_cons]; ring

theorem row_sum {N : ℕ} {M : SMat} (hM : M.OK N) {e : ℕ × SVec} (he : e ∈ M) (f : ℕ → ℂ) :
    e.2.foldl (fun val k => val + k.2 * f k.1) 0 = ∑ K ∈ Finset.range N, M.get e.1 K * f K := by
  rw [foldl_add_sum e.2 (fun k => k.2 * f k.1), zero_add]
  have := am_sum (hM.cols e he) (hM.clt e he) (fun k v => v.getD 0 * f k) (by simp)
  simp only [Option.getD_some] at this
  rw [this]
  refine Finset.sum_congr rfl (fun K _ => ?_)
  rw [SMat.get_row hM he]; rfl

theorem leftMultiply_ok {N : ℕ} {M L : SMat} (hM : M.OK N) (hL : L.OK N) :
    (M.leftMultiply L).OK N ∧ ∀ I J, (M.leftMultiply L).get I J = chop (∑ K ∈ Finset.range N, L.get I K * M.get K J) := by
  classical
  let F : ℕ → ℕ → ℂ := fun I J => ∑ K ∈ Finset.range N, L.get I K * M.get K J
  let ws : List (ℕ × ℕ × ℂ) := L.flatMap fun i => (M.uniqueJs.filter fun j => decide (‖F i.1 j‖ > 1e-16)).map fun j => (i.1, j, F i.1 j)
  have hjs : ∀ j ∈ M.uniqueJs, j < N := by
    intro j hj
    obtain ⟨e, he, x, hx, rfl⟩ := (uniqueJs_mem M j).1 hj
    exact hM.clt e he x hx
  have hfold : M.leftMultiply L = ws.foldl (fun (M : SMat) w => M.set w.1 w.2.1 w.2.2) [] := by
    have inner : ∀ (i : ℕ × SVec), i ∈ L → ∀ (js : List ℕ) (temp : SMat),
        js.foldl (fun temp j => if ‖i.2.foldl (fun val k => val + k.2 * M.get k.1 j) 0‖ > 1e-16 then
          temp.set i.1 j (i.2.foldl (fun val k => val + k.2 * M.get k.1 j) 0) else temp) temp =
        ((js.filter fun j => decide (‖F i.1 j‖ > 1e-16)).map fun j => (i.1, j, F i.1 j)).foldl (fun (M : SMat) w => M.set w.1 w.2.1 w.2.2) temp := by
      intro i hi js
      have hv : ∀ j, i.2.foldl (fun val k => val + k.2 * M.get k.1 j) 0 = F i.1 j := fun j => row_sum hL hi (fun k => M.get k j)
      induction js with
      | nil => intro temp; rfl
      | cons j js ih =>
        intro temp
        rw [List.foldl_cons, ih, List.filter_cons, hv]
        by_cases h : ‖F i.1 j‖ > 1e-16
        · simp only [h, if_true, decide_true, List.map_cons, List.foldl_cons]
        · simp only [h, if_false, decide_false, Bool.false_eq_true]
    have outer : ∀ (L' : SMat), (∀ i ∈ L', i ∈ L) → ∀ temp : SMat,
        L'.foldl (fun temp i => M.uniqueJs.foldl (fun temp j =>
          if ‖i.2.foldl (fun val k => val + k.2 * M.get k.1 j) 0‖ > 1e-16 then
          temp.set i.1 j (i.2.foldl (fun val k => val + k.2 * M.get k.1 j) 0) else temp) temp) temp =
        (L'.flatMap fun i => (M.uniqueJs.filter fun j => decide (‖F i.1 j‖ > 1e-16)).map fun j => (i.1, j, F i.1 j)).foldl
          (fun (M : SMat) w => M.set w.1 w.2.1 w.2.2) temp := by
      intro L'
      induction L' with
      | nil => intro _ temp; rfl
      | cons i L' ih =>
        intro hL' temp
        rw [List.foldl_cons, inner i (hL' i (by simp)), ih (fun i hi => hL' i (by simp [hi])), List.flatMap_cons, List.foldl_append]
    exact outer L (fun i hi => hi) []
  obtain ⟨h1, h2⟩ := foldl_writes (N := N) F ws [] (.nil N) (by
    intro w hw
    obtain ⟨i, hi, h⟩ := List.mem_flatMap.1 hw
    obtain ⟨j, hj, rfl⟩ := List.mem_map.1 h
    exact ⟨hL.rlt i hi, hjs j (List.mem_filter.1 hj).1, rfl⟩)
  rw [← hfold] at h1 h2
  refine ⟨h1, fun I J => ?_⟩
  show _ = chop (F I J)
  unfold chop
  by_cases h : ‖F I J‖ > 1e-16
  · rw [if_pos h]
    refine (h2 I J).1 ?_
    -- a non-zero product needs a stored row of L and a stored column of M
    have hne : F I J ≠ 0 := fun e => by rw [e] at h; norm_num at h
    obtain ⟨K, _, hK⟩ := Finset.exists_ne_zero_of_sum_ne_zero hne
    have hLK := left_ne_zero_of_mul hK
    have hMK := right_ne_zero_of_mul hK
    have hrow : ∃ i ∈ L, i.1 = I := by
      unfold SMat.get SMat.row at hLK
      rcases hg : amGet L I with _ | r
      · rw [hg] at hLK; simp [SVec.get, amGet] at hLK
      · exact ⟨_, mem_of_amGet hg, rfl⟩
    have hcol : J ∈ M.uniqueJs := by
      rw [uniqueJs_mem M]
      unfold SMat.get SMat.row at hMK
      rcases hg : amGet M K with _ | r
      · rw [hg] at hMK; simp [SVec.get, amGet] at hMK
      · rw [hg] at hMK
        simp only [Option.getD_some, SVec.get] at hMK
        rcases hg2 : amGet r J with _ | z
        · rw [hg2] at hMK; simp at hMK
        · exact ⟨_, mem_of_amGet hg, _, mem_of_amGet hg2, rfl⟩
    obtain ⟨i, hi, rfl⟩ := hrow
    rw [List.mem_map]
    exact ⟨(i.1, J, F i.1 J), List.mem_flatMap.2 ⟨i, hi, List.mem_map.2 ⟨J, List.mem_filter.2 ⟨hcol, by simpa using h⟩, rfl⟩⟩, rfl⟩
  · rw [if_neg h, (h2 I J).2]
    · simp [SMat.get, SMat.row, SVec.get, amGet]
    · intro hm
      obtain ⟨w, hw, e⟩ := List.mem_map.1 hm
      obtain ⟨i, hi, h'⟩ := List.mem_flatMap.1 hw
      obtain ⟨j, hj, rfl⟩ := List.mem_map.1 h'
      simp only [Prod.mk.injEq] at e
      have := (List.mem_filter.1 hj).2
      rw [e.1, e.2] at this
      exact h (by simpa using this)

/-! ### add -/

theorem add_ok {N : ℕ} {M B : SMat} (hM : M.OK N) (hB : B.OK N) (f : ℂ) (hch : ∀ I J, chop (M.get I J) = M.get I J) :
    (M.add B f).OK N ∧ ∀ I J, (M.add B f).get I J = chop (f * B.get I J + M.get I J) := by
  classical
  let F : ℕ → ℕ → ℂ := fun I J => chop (f * B.get I J + M.get I J)
  let ws : List (ℕ × ℕ × ℂ) := B.flatMap fun i => i.2.map fun j => (i.1, j.1, j.2)
  let step : SMat → ℕ × ℕ × ℂ → SMat := fun temp w =>
    if ‖f * w.2.2 + M.get w.1 w.2.1‖ > 1e-16 then temp.set w.1 w.2.1 (f * w.2.2 + M.get w.1 w.2.1) else temp.erase w.1 w.2.1
  have hfold : M.add B f = ws.foldl step M := by
    show _ = (B.flatMap fun i => i.2.map fun j => (i.1, j.1, j.2)).foldl step M
    rw [List.foldl_flatMap]
    simp only [List.foldl_map]
    rfl
  have hmem : ∀ w ∈ ws, w.1 < N ∧ w.2.1 < N ∧ B.get w.1 w.2.1 = w.2.2 := by
    intro w hw
    obtain ⟨i, hi, h⟩ := List.mem_flatMap.1 hw
    obtain ⟨j, hj, rfl⟩ := List.mem_map.1 h
    refine ⟨hB.rlt i hi, hB.clt i hi j hj, ?_⟩
    rw [SMat.get_row hB hi, SVec.get, amGet_mem (hB.cols i hi) hj]; rfl
  obtain ⟨h1, h2⟩ := foldl_steps (N := N) F (fun w => (w.1, w.2.1)) step ws M hM (by
    intro w hw T hT
    obtain ⟨a, b, c⟩ := hmem w hw
    simp only [step]
    by_cases h : ‖f * w.2.2 + M.get w.1 w.2.1‖ > 1e-16
    · rw [if_pos h]
      refine ⟨hT.set a b _, fun I J => ?_⟩
      rw [SMat.get_set]
      by_cases e : I = w.1 ∧ J = w.2.1
      · rw [if_pos e, if_pos e]
        show _ = chop _
        rw [e.1, e.2, c, chop, if_pos h]
      · rw [if_neg e, if_neg e]
    · rw [if_neg h]
      refine ⟨hT.erase a _, fun I J => ?_⟩
      rw [SMat.get_erase]
      by_cases e : I = w.1 ∧ J = w.2.1
      · rw [if_pos e, if_pos e]
        show _ = chop _
        rw [e.1, e.2, c, chop, if_neg h]
      · rw [if_neg e, if_neg e])
  rw [← hfold] at h1 h2
  refine ⟨h1, fun I J => ?_⟩
  by_cases hm : (I, J) ∈ ws.map (fun w => (w.1, w.2.1))
  · exact (h2 I J).1 hm
  · rw [(h2 I J).2 hm]
    have h0 : B.get I J = 0 := by
      unfold SMat.get SMat.row
      rcases hg : amGet B I with _ | r
      · simp [SVec.get, amGet]
      · simp only [Option.getD_some, SVec.get]
        rcases hg2 : amGet r J with _ | z
        · rfl
        · exfalso
          apply hm
          exact List.mem_map.2 ⟨(I, J, z), List.mem_flatMap.2 ⟨_, mem_of_amGet hg, List.mem_map.2 ⟨_, mem_of_amGet hg2, rfl⟩⟩, rfl⟩
    rw [h0, mul_zero, zero_add, hch]

end QF
