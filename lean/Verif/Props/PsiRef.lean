import Verif.Props.PsiMol

/-!
C93: the reference determinant, orbital energies and irreps of `create_psi_mol`.
-/
namespace QF
open SQOperator (DescSort)

/-- what the loop has built after the orbitals `l` -/
structure PsiRef.Inv (D : PsiData) (l : List (ℝ × ℕ)) (s : PsiRef) : Prop where
  energies : s.energies = l.map Prod.fst
  irreps : s.irreps = l.map Prod.snd
  len : s.count.length = D.frzcpi.length
  count : ∀ h < D.frzcpi.length, s.count.getD h 0 = D.frzcpi.getD h 0 + (l.map Prod.snd).count h
  rlen : s.reference.length = 2 * l.length
  inRange : ∀ h ∈ l.map Prod.snd, h < D.frzcpi.length
  occA : ∀ k < l.length, ∀ h, (l.map Prod.snd)[k]? = some h →
    (D.occA.getD h [])[D.frzcpi.getD h 0 + ((l.map Prod.snd).take k).count h]? = some (s.reference.getD (2 * k) 0)
  occB : ∀ k < l.length, ∀ h, (l.map Prod.snd)[k]? = some h →
    (D.occB.getD h [])[D.frzcpi.getD h 0 + ((l.map Prod.snd).take k).count h]? = some (s.reference.getD (2 * k + 1) 0)

theorem pyAt_ok {α : Type} {l : List α} {i : ℕ} {a : α} : pyAt l i = .ok a ↔ l[i]? = some a := by
  unfold pyAt
  cases l[i]? <;> simp

theorem psiRefStep_ok {D : PsiData} {s s' : PsiRef} {o : ℝ × ℕ} : psiRefStep D s o = .ok s' ↔
    ∃ A c a B b, D.occA[o.2]? = some A ∧ s.count[o.2]? = some c ∧ A[c]? = some a ∧ D.occB[o.2]? = some B ∧ B[c]? = some b ∧
      s' = ⟨s.count.set o.2 (c + 1), s.reference ++ [a] ++ [b], s.energies ++ [o.1], s.irreps ++ [o.2]⟩ := by
  unfold psiRefStep pyAt
  constructor
  · intro e
    cases h1 : D.occA[o.2]? with
    | none => simp [h1, bind, Except.bind] at e
    | some A =>
      cases h2 : s.count[o.2]? with
      | none => simp [h1, h2, bind, Except.bind] at e
      | some c =>
        cases h3 : A[c]? with
        | none => simp [h1, h2, h3, bind, Except.bind] at e
        | some a =>
          cases h4 : D.occB[o.2]? with
          | none => simp [h1, h2, h3, h4, bind, Except.bind] at e
          | some B =>
            cases h5 : B[c]? with
            | none => simp [h1, h2, h3, h4, h5, bind, Except.bind] at e
            | some b =>
              simp [h1, h2, h3, h4, h5, bind, Except.bind, pure, Except.pure] at e
              exact ⟨A, c, a, B, b, rfl, rfl, h3, rfl, h5, by rw [← e]; simp⟩
  · rintro ⟨A, c, a, B, b, h1, h2, h3, h4, h5, rfl⟩
    simp [h1, h2, h3, h4, h5, bind, Except.bind, pure, Except.pure]

theorem getD_of {α : Type} {l : List α} {i : ℕ} {a d : α} (h : l[i]? = some a) : l.getD i d = a := by
  rw [List.getD_eq_getElem?_getD, h]; rfl

theorem step_inv {D : PsiData} {l : List (ℝ × ℕ)} {s s' : PsiRef} {o : ℝ × ℕ} (hI : s.Inv D l) (e : psiRefStep D s o = .ok s') : s'.Inv D (l ++ [o]) := by
  obtain ⟨A, c, a, B, b, h1, h2, h3, h4, h5, rfl⟩ := psiRefStep_ok.1 e
  have ho : o.2 < D.frzcpi.length := by rw [← hI.len]; exact (List.getElem?_eq_some_iff.1 h2).1
  have hc : c = D.frzcpi.getD o.2 0 + (l.map Prod.snd).count o.2 := by rw [← hI.count _ ho, getD_of h2]
  refine ⟨by simp [hI.energies], by simp [hI.irreps], by simp [hI.len], ?_, by simp [hI.rlen]; omega, ?_, ?_, ?_⟩
  · intro h hh
    rw [List.map_append, List.count_append, List.getD_eq_getElem _ _ (by simpa [hI.len] using hh), List.getElem_set]
    by_cases e : o.2 = h
    · subst e; simp [hc]; omega
    · rw [if_neg e, ← List.getD_eq_getElem _ 0 (by rw [hI.len]; exact hh), hI.count h hh]
      simp [e]
  · intro h hh
    rw [List.map_append, List.mem_append] at hh
    rcases hh with hh | hh
    · exact hI.inRange h hh
    · simp at hh; omega
  all_goals
    intro k hk h hh
    rw [List.length_append, List.length_singleton] at hk
    have hl : (l.map Prod.snd).length = l.length := by simp
    by_cases hkl : k < l.length
    · rw [List.map_append, List.getElem?_append_left (by omega)] at hh
      rw [List.map_append, List.take_append_of_le_length (by omega)]
      have hr := hI.rlen
      rw [List.append_assoc, List.getD_append _ _ _ _ (by omega)]
      first
        | exact hI.occA k hkl h hh
        | exact hI.occB k hkl h hh
    · have : k = l.length := by omega
      subst this
      rw [List.map_append, List.getElem?_append_right (by omega), hl, Nat.sub_self] at hh
      simp at hh
      subst hh
      rw [List.map_append, ← hl, List.take_left, hl, ← hc]
      first
        | (rw [getD_of h1, h3]; congr 1; rw [List.append_assoc, ← hI.rlen]; simp)
        | (rw [getD_of h4, h5]; congr 1; rw [← hI.rlen, List.getD_append_right _ _ _ _ (by simp)]; simp)

theorem init_inv (D : PsiData) : PsiRef.Inv D [] ⟨D.frzcpi, [], [], []⟩ :=
  ⟨rfl, rfl, rfl, by simp, rfl, by simp, by simp, by simp⟩

theorem fold_inv {D : PsiData} (l' : List (ℝ × ℕ)) : ∀ {l : List (ℝ × ℕ)} {s s' : PsiRef}, s.Inv D l → l'.foldlM (psiRefStep D) s = .ok s' → s'.Inv D (l ++ l') := by
  induction l' with
  | nil => intro l s s' h e; cases e; simpa using h
  | cons o l' ih =>
    intro l s s' h e
    rw [List.foldlM_cons] at e
    cases e1 : psiRefStep D s o with
    | error x => rw [e1] at e; simp [bind, Except.bind] at e
    | ok s1 =>
      rw [e1] at e
      simp only [bind, Except.bind] at e
      have := ih (step_inv h e1) e
      simpa using this

theorem sort_perm (l : List (ℝ × ℕ)) : (sortOrbitals l).Perm l := List.mergeSort_perm _ _

theorem sort_sorted (l : List (ℝ × ℕ)) : (sortOrbitals l).Pairwise fun a b => a.1 < b.1 ∨ (a.1 = b.1 ∧ a.2 ≤ b.2) := by
  classical
  have := List.pairwise_mergeSort (le := fun a b : ℝ × ℕ => decide (a.1 < b.1 ∨ (a.1 = b.1 ∧ a.2 ≤ b.2))) (by
      intro a b c h1 h2
      simp only [decide_eq_true_eq] at *
      rcases h1 with h1 | ⟨h1, h1'⟩ <;> rcases h2 with h2 | ⟨h2, h2'⟩
      · exact .inl (h1.trans h2)
      · exact .inl (h2 ▸ h1)
      · exact .inl (h1 ▸ h2)
      · exact .inr ⟨h1.trans h2, h1'.trans h2'⟩) (by
      intro a b
      simp only [Bool.or_eq_true, decide_eq_true_eq]
      rcases lt_trichotomy a.1 b.1 with h | h | h
      · exact .inl (.inl h)
      · rcases le_total a.2 b.2 with h' | h'
        · exact .inl (.inr ⟨h, h'⟩)
        · exact .inr (.inr ⟨h.symm, h'⟩)
      · exact .inr (.inl h)) l
  refine (List.Pairwise.imp ?_ this)
  intro a b h
  simpa using h

theorem mapM_pairs {α β : Type} {f : α → Except Exc β} : ∀ (l : List α) (r : List β), l.mapM f = .ok r → List.Forall₂ (fun a b => f a = .ok b) l r := by
  intro l
  induction l with
  | nil => intro r e; simp [pure, Except.pure] at e; subst e; exact .nil
  | cons a l ih =>
    intro r e
    rw [List.mapM_cons] at e
    cases e1 : f a with
    | error x => rw [e1] at e; simp [bind, Except.bind] at e
    | ok b =>
      cases e2 : l.mapM f with
      | error x => rw [e1, e2] at e; simp [bind, Except.bind] at e
      | ok bs =>
        rw [e1, e2] at e
        simp [bind, Except.bind, pure, Except.pure] at e
        subst e
        exact .cons e1 (ih bs e2)

/-- **C93 (reference).**  The active orbitals are listed in order of energy (then irrep); the `k`-th one of the list, being the `j`-th of irrep `h`,
has the alpha and beta occupations of orbital `frozen_h + j` of that irrep, at positions `2 k` and `2 k + 1` of the reference. -/
theorem C93_reference (o : DescSort) (D : PsiData) (M : PsiMolecule) (e : createPsiMol o D = .ok M) :
    (M.orbEnergies.zip M.orbIrrepsToInt).Perm D.orbitals ∧ M.orbEnergies.Pairwise (· ≤ ·) ∧ M.orbEnergies.length = D.orbitals.length ∧
    M.orbIrrepsToInt.length = D.orbitals.length ∧ M.hfReference.length = 2 * D.orbitals.length ∧
    (∀ k < D.orbitals.length, ∃ h ia ib c, M.orbIrrepsToInt[k]? = some h ∧ D.frzcpi[h]? = some c ∧ M.hfReference[2 * k]? = some ia ∧ M.hfReference[2 * k + 1]? = some ib ∧
      (D.occA.getD h [])[c + (M.orbIrrepsToInt.take k).count h]? = some ia ∧ (D.occB.getD h [])[c + (M.orbIrrepsToInt.take k).count h]? = some ib) ∧
    ∀ k < D.orbitals.length, ∃ h name, M.orbIrrepsToInt[k]? = some h ∧ M.orbIrreps[k]? = some name ∧ M.pointGroup.2[h]? = some name := by
  obtain ⟨s, irreps, e1, e2, e3, e4, e5, e6, e7, e8, _⟩ := createPsi_ok e
  have hI := fold_inv _ (init_inv D) e1
  rw [List.nil_append] at hI
  have hp := sort_perm D.orbitals
  have hlen := hp.length_eq
  rw [e3, e5, e6, e7, hI.energies, hI.irreps]
  refine ⟨?_, ?_, by simp [hlen], by simp [hlen], by rw [hI.rlen, hlen], ?_, ?_⟩
  · rw [List.zip_map', List.map_id'' (by intro; rfl)]
    exact hp
  · rw [List.pairwise_map]
    refine (sort_sorted D.orbitals).imp ?_
    rintro a b (h | ⟨h, _⟩)
    · exact h.le
    · exact h.le
  · intro k hk
    have hk' : k < (sortOrbitals D.orbitals).length := by omega
    have hk2 : k < ((sortOrbitals D.orbitals).map Prod.snd).length := by simpa using hk'
    have hr := hI.rlen
    have hh := hI.inRange _ (List.getElem_mem hk2)
    have gk := List.getElem?_eq_getElem hk2
    refine ⟨_, s.reference.getD (2 * k) 0, s.reference.getD (2 * k + 1) 0, D.frzcpi.getD _ 0, gk, ?_, ?_, ?_, hI.occA k hk' _ gk, hI.occB k hk' _ gk⟩
    · rw [List.getD_eq_getElem _ _ hh, List.getElem?_eq_getElem hh]
    · rw [List.getD_eq_getElem _ _ (by omega), List.getElem?_eq_getElem (by omega)]
    · rw [List.getD_eq_getElem _ _ (by omega), List.getElem?_eq_getElem (by omega)]
  · intro k hk
    have hk2 : k < ((sortOrbitals D.orbitals).map Prod.snd).length := by simp; omega
    rw [hI.irreps] at e4
    have := mapM_pairs _ _ e4
    have hl := this.length_eq
    have hg := List.forall₂_iff_get.1 this
    have h2 := hg.2 k hk2 (by omega)
    refine ⟨_, _, List.getElem?_eq_getElem hk2, List.getElem?_eq_getElem (by omega), ?_⟩
    exact pyAt_ok.1 h2


/-! ### the number of electrons -/

/-- psi4's data fit together: one entry per irrep in each list; in each irrep the frozen core orbitals come first and are doubly occupied,
then the active ones, then the frozen virtual ones, which are empty; the irreps are those of the point group -/
structure PsiData.Consistent (D : PsiData) : Prop where
  group : pyLower D.pointGroup ∈ Character.groups
  irreps : D.frzcpi.length ≤ (Character.table (pyLower D.pointGroup)).length
  eps : D.epsActive.length = D.frzcpi.length
  virt : D.frzvpi.length = D.frzcpi.length
  lenA : D.occA.length = D.frzcpi.length
  lenB : D.occB.length = D.frzcpi.length
  occA : ∀ h < D.frzcpi.length, ∃ mid, mid.length = (D.epsActive.getD h []).length ∧
    D.occA.getD h [] = List.replicate (D.frzcpi.getD h 0) 1 ++ mid ++ List.replicate (D.frzvpi.getD h 0) 0
  occB : ∀ h < D.frzcpi.length, ∃ mid, mid.length = (D.epsActive.getD h []).length ∧
    D.occB.getD h [] = List.replicate (D.frzcpi.getD h 0) 1 ++ mid ++ List.replicate (D.frzvpi.getD h 0) 0

theorem orbitals_count (L : List (List ℝ)) (n h : ℕ) :
    (((L.zipIdx n).map fun b => b.1.map fun e => (e, b.2)).flatten.map Prod.snd).count h = if n ≤ h then (L.getD (h - n) []).length else 0 := by
  induction L generalizing n with
  | nil => simp
  | cons b L ih =>
    rw [List.zipIdx_cons, List.map_cons, List.flatten_cons, List.map_append, List.count_append, ih (n + 1)]
    have e : ((b.map fun e => (e, n)).map Prod.snd) = List.replicate b.length n := by
      rw [List.map_map]; exact List.map_const' ..
    rw [e, List.count_replicate]
    by_cases h1 : n = h
    · subst h1; simp
    · by_cases h2 : n ≤ h
      · rw [if_neg (by simpa using h1), if_pos (by omega), if_pos h2, show h - n = h - (n + 1) + 1 by omega]; simp
      · rw [if_neg (by simpa using h1), if_neg (by omega), if_neg h2]

theorem orbitals_lt (D : PsiData) : ∀ o ∈ D.orbitals, o.2 < D.epsActive.length := by
  intro o ho
  unfold PsiData.orbitals at ho
  obtain ⟨l, hl, hol⟩ := List.mem_flatten.1 ho
  obtain ⟨b, hb, rfl⟩ := List.mem_map.1 hl
  obtain ⟨e, he, rfl⟩ := List.mem_map.1 hol
  have := List.mem_zipIdx hb
  simp at this ⊢
  omega

/-- no index error, when the data fit together -/
theorem fold_total {D : PsiData} (hC : D.Consistent) (l' : List (ℝ × ℕ)) : ∀ {l : List (ℝ × ℕ)} {s : PsiRef}, s.Inv D l →
    (∀ o ∈ l', o.2 < D.frzcpi.length) → (∀ h, ((l ++ l').map Prod.snd).count h ≤ (D.epsActive.getD h []).length) →
    ∃ s', l'.foldlM (psiRefStep D) s = .ok s' := by
  induction l' with
  | nil => intro l s h _ _; exact ⟨s, rfl⟩
  | cons o l' ih =>
    intro l s h h1 h2
    have ho := h1 o (by simp)
    have hc := h2 o.2
    have hcnt : (l.map Prod.snd).count o.2 < (D.epsActive.getD o.2 []).length := by
      rw [List.map_append, List.map_cons, List.count_append, List.count_cons_self] at hc
      omega
    obtain ⟨mA, lA, eA⟩ := hC.occA o.2 ho
    obtain ⟨mB, lB, eB⟩ := hC.occB o.2 ho
    have gc : s.count[o.2]? = some (D.frzcpi.getD o.2 0 + (l.map Prod.snd).count o.2) := by
      rw [← h.count _ ho, List.getElem?_eq_getElem (by rw [h.len]; exact ho), List.getD_eq_getElem _ _ (by rw [h.len]; exact ho)]
    have gA : D.occA[o.2]? = some (D.occA.getD o.2 []) := by
      rw [List.getElem?_eq_getElem (by rw [hC.lenA]; exact ho), List.getD_eq_getElem _ _ (by rw [hC.lenA]; exact ho)]
    have gB : D.occB[o.2]? = some (D.occB.getD o.2 []) := by
      rw [List.getElem?_eq_getElem (by rw [hC.lenB]; exact ho), List.getD_eq_getElem _ _ (by rw [hC.lenB]; exact ho)]
    have bA : D.frzcpi.getD o.2 0 + (l.map Prod.snd).count o.2 < (D.occA.getD o.2 []).length := by
      rw [eA]; simp only [List.length_append, List.length_replicate, lA]; omega
    have bB : D.frzcpi.getD o.2 0 + (l.map Prod.snd).count o.2 < (D.occB.getD o.2 []).length := by
      rw [eB]; simp only [List.length_append, List.length_replicate, lB]; omega
    have e1 := psiRefStep_ok.2 ⟨_, _, _, _, _, gA, gc, List.getElem?_eq_getElem bA, gB, List.getElem?_eq_getElem bB, rfl⟩
    obtain ⟨s', e'⟩ := ih (step_inv h e1) (fun o' ho' => h1 o' (by simp [ho'])) (by simpa using h2)
    refine ⟨s', ?_⟩
    rw [List.foldlM_cons, e1]
    exact e'


/-- electrons in orbital `j` of irrep `h` -/
def PsiData.electrons (D : PsiData) (h j : ℕ) : ℕ := (D.occA.getD h []).getD j 0 + (D.occB.getD h []).getD j 0

theorem step_sum {D : PsiData} {l : List (ℝ × ℕ)} {s s' : PsiRef} {o : ℝ × ℕ} (hI : s.Inv D l)
    (hs : s.reference.sum = ∑ h ∈ Finset.range D.frzcpi.length, ∑ j ∈ Finset.range ((l.map Prod.snd).count h), D.electrons h (D.frzcpi.getD h 0 + j))
    (e : psiRefStep D s o = .ok s') :
    s'.reference.sum = ∑ h ∈ Finset.range D.frzcpi.length, ∑ j ∈ Finset.range (((l ++ [o]).map Prod.snd).count h), D.electrons h (D.frzcpi.getD h 0 + j) := by
  obtain ⟨A, c, a, B, b, h1, h2, h3, h4, h5, rfl⟩ := psiRefStep_ok.1 e
  have ho : o.2 < D.frzcpi.length := by rw [← hI.len]; exact (List.getElem?_eq_some_iff.1 h2).1
  have hc : c = D.frzcpi.getD o.2 0 + (l.map Prod.snd).count o.2 := by rw [← hI.count _ ho, getD_of h2]
  have key : ∀ h, ∑ j ∈ Finset.range (((l ++ [o]).map Prod.snd).count h), D.electrons h (D.frzcpi.getD h 0 + j) =
      ∑ j ∈ Finset.range ((l.map Prod.snd).count h), D.electrons h (D.frzcpi.getD h 0 + j) + if h = o.2 then a + b else 0 := by
    intro h
    rw [List.map_append, List.count_append]
    by_cases e : h = o.2
    · subst e
      rw [if_pos rfl]
      simp only [List.map_cons, List.map_nil, List.count_singleton_self]
      rw [Finset.sum_range_succ, ← hc]
      congr 1
      unfold PsiData.electrons
      rw [getD_of h1, getD_of h4, getD_of h3, getD_of h5]
    · rw [if_neg e]
      simp [Ne.symm e]
  rw [Finset.sum_congr rfl fun h _ => key h, Finset.sum_add_distrib, ← hs, Finset.sum_ite_eq', if_pos (by simpa using ho)]
  simp

theorem fold_sum {D : PsiData} (l' : List (ℝ × ℕ)) : ∀ {l : List (ℝ × ℕ)} {s s' : PsiRef}, s.Inv D l →
    s.reference.sum = ∑ h ∈ Finset.range D.frzcpi.length, ∑ j ∈ Finset.range ((l.map Prod.snd).count h), D.electrons h (D.frzcpi.getD h 0 + j) →
    l'.foldlM (psiRefStep D) s = .ok s' →
    s'.reference.sum = ∑ h ∈ Finset.range D.frzcpi.length, ∑ j ∈ Finset.range (((l ++ l').map Prod.snd).count h), D.electrons h (D.frzcpi.getD h 0 + j) := by
  induction l' with
  | nil => intro l s s' h hs e; cases e; simpa using hs
  | cons o l' ih =>
    intro l s s' h hs e
    rw [List.foldlM_cons] at e
    cases e1 : psiRefStep D s o with
    | error x => rw [e1] at e; simp [bind, Except.bind] at e
    | ok s1 =>
      rw [e1] at e
      simp only [bind, Except.bind] at e
      have := ih (step_inv h e1) (step_sum h hs e1) e
      simpa using this

theorem list_sum_range (l : List ℕ) : l.sum = ∑ j ∈ Finset.range l.length, l.getD j 0 := by
  induction l using List.reverseRecOn with
  | nil => simp
  | append_singleton l a ih =>
    rw [List.sum_append, List.length_append, List.length_singleton, Finset.sum_range_succ, ih]
    congr 1
    · exact Finset.sum_congr rfl fun j hj => (List.getD_append _ _ _ _ (Finset.mem_range.1 hj)).symm
    · simp

theorem flatten_sum_range (L : List (List ℕ)) : L.flatten.sum = ∑ h ∈ Finset.range L.length, (L.getD h []).sum := by
  induction L using List.reverseRecOn with
  | nil => simp
  | append_singleton L a ih =>
    rw [List.flatten_append, List.sum_append, List.length_append, List.length_singleton, Finset.sum_range_succ, ih]
    congr 1
    · exact Finset.sum_congr rfl fun j hj => by rw [List.getD_append _ _ _ _ (Finset.mem_range.1 hj)]
    · simp

theorem block_sum (c v : ℕ) (mid : List ℕ) :
    (List.replicate c 1 ++ mid ++ List.replicate v 0).sum = c + ∑ j ∈ Finset.range mid.length, (List.replicate c 1 ++ mid ++ List.replicate v 0).getD (c + j) 0 := by
  have : ∀ j ∈ Finset.range mid.length, (List.replicate c 1 ++ mid ++ List.replicate v 0).getD (c + j) 0 = mid.getD j 0 := by
    intro j hj
    have hj := Finset.mem_range.1 hj
    rw [List.append_assoc, List.getD_append_right _ _ _ _ (by simp), List.length_replicate, Nat.add_sub_cancel_left, List.getD_append _ _ _ _ hj]
  rw [Finset.sum_congr rfl this, ← list_sum_range]
  simp

/-- **C93 (electrons).**  With consistent data `create_psi_mol` succeeds, and the reference holds all electrons but those of the frozen
core: together with two per frozen core orbital they are the alpha and the beta electrons. -/
theorem C93_electrons (o : DescSort) (D : PsiData) (hC : D.Consistent) : ∃ M, createPsiMol o D = .ok M ∧
    M.hfReference.sum + 2 * D.frozenCore = D.occA.flatten.sum + D.occB.flatten.sum := by
  have hp := sort_perm D.orbitals
  have hcount : ∀ h, ((sortOrbitals D.orbitals).map Prod.snd).count h = (D.epsActive.getD h []).length := by
    intro h
    rw [(hp.map Prod.snd).count_eq]
    have := orbitals_count D.epsActive 0 h
    simpa [PsiData.orbitals] using this
  have hlt : ∀ o ∈ sortOrbitals D.orbitals, o.2 < D.frzcpi.length := fun o ho => hC.eps ▸ orbitals_lt D o (hp.mem_iff.1 ho)
  obtain ⟨s, e1⟩ := fold_total hC (sortOrbitals D.orbitals) (init_inv D) hlt (fun h => (hcount h).le)
  have hI := fold_inv _ (init_inv D) e1
  have hS := fold_sum _ (init_inv D) (by simp) e1
  rw [List.nil_append] at hI hS
  have e2 := ((C91_irreps D.pointGroup).1 hC.group).1
  have e3 : ∃ r, s.irreps.mapM (pyAt ((Character.table (pyLower D.pointGroup)).map Prod.fst)) = .ok r := by
    obtain ⟨r, hr, _⟩ := mapM_forall₂ (R := fun _ _ => True) (f := pyAt ((Character.table (pyLower D.pointGroup)).map Prod.fst)) s.irreps (by
      intro h hh
      rw [hI.irreps] at hh
      have := hI.inRange h hh
      have hb : h < ((Character.table (pyLower D.pointGroup)).map Prod.fst).length := by
        rw [List.length_map]; exact this.trans_le hC.irreps
      exact ⟨_, pyAt_ok.2 (List.getElem?_eq_getElem hb), trivial⟩)
    exact ⟨r, hr⟩
  obtain ⟨r, e3⟩ := e3
  obtain ⟨hl, hb, h39⟩ := psi_live D
  obtain ⟨Q, R, DQ, e4, _⟩ := jw_live o (psiSqHam D) hl h39
  refine ⟨⟨⟨(D.pointGroup, (Character.table (pyLower D.pointGroup)).map Prod.fst), r, s.irreps, s.reference, R, Q⟩, s.energies, frozenCoreEnergy D⟩, ?_, ?_⟩
  · unfold createPsiMol psiReference
    rw [e1, e2]
    simp only [bind, Except.bind, e3, e4]
    rfl
  · dsimp only
    rw [hS]
    simp only [hcount]
    have hf : D.frozenCore = ∑ h ∈ Finset.range D.frzcpi.length, D.frzcpi.getD h 0 := list_sum_range D.frzcpi
    rw [flatten_sum_range, flatten_sum_range, hC.lenA, hC.lenB, hf, Finset.mul_sum, ← Finset.sum_add_distrib, ← Finset.sum_add_distrib]
    refine Finset.sum_congr rfl fun h hh => ?_
    have hh := Finset.mem_range.1 hh
    obtain ⟨mA, lA, eA⟩ := hC.occA h hh
    obtain ⟨mB, lB, eB⟩ := hC.occB h hh
    unfold PsiData.electrons
    rw [eA, eB, Finset.sum_add_distrib, block_sum, block_sum, lA, lB]
    ring


/-! ### example: three orbitals in two irreps, one of them frozen -/

noncomputable def examplePsi : PsiData where
  enuc := 1
  nmo := 3
  oei i j := if i = j then -2 else 0
  tei i j k l := if i = j ∧ k = l then 1 / 2 else 0
  frzcpi := [1, 0]
  frzvpi := [0, 0]
  epsActive := [[-0.5], [0.2]]
  occA := [[1, 1], [0]]
  occB := [[1, 1], [0]]
  pointGroup := "cs"

theorem C93_example : examplePsi.Consistent ∧ RealIntegrals examplePsi.oei examplePsi.tei ∧ examplePsi.frozenCore + examplePsi.frozenVirtual ≤ examplePsi.nmo ∧
    examplePsi.nact = 2 ∧ ∀ o, ∃ M, createPsiMol o examplePsi = .ok M ∧ M.hfReference.sum = 2 := by
  have hC : examplePsi.Consistent := by
    refine ⟨by decide, by decide, rfl, rfl, rfl, rfl, ?_, ?_⟩ <;>
    · intro h hh
      have hh : h < 2 := hh
      rcases (by omega : h = 0 ∨ h = 1) with rfl | rfl
      · exact ⟨[1], rfl, rfl⟩
      · exact ⟨[0], rfl, rfl⟩
  refine ⟨hC, ⟨?_, ?_, ?_, ?_⟩, by decide, by decide, ?_⟩
  · intro i j; exact if_congr ⟨Eq.symm, Eq.symm⟩ rfl rfl
  · intro i j k l; exact if_congr ⟨fun h => ⟨h.1.symm, h.2⟩, fun h => ⟨h.1.symm, h.2⟩⟩ rfl rfl
  · intro i j k l; exact if_congr ⟨fun h => ⟨h.1, h.2.symm⟩, fun h => ⟨h.1, h.2.symm⟩⟩ rfl rfl
  · intro i j k l; exact if_congr And.comm rfl rfl
  · intro o
    obtain ⟨M, e, h⟩ := C93_electrons o examplePsi hC
    refine ⟨M, e, ?_⟩
    simp [examplePsi, PsiData.frozenCore] at h
    omega

end QF
