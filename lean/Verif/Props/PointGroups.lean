import Verif.Model.System
import Verif.Spec.Character
import Verif.Spec.Excitation
import Verif.Props.StatePrep

/-!
C91: the irreps of the supported point groups, and `find_irrep` as the direct product of representations.
-/
namespace QF
open Character

/-- the XOR of two positions is the position of the direct product, for each of the eight supported groups -/
theorem table_xor : ∀ g ∈ groups, ∃ l, pointGroupToIrreps.lookup g = some l ∧ l = (table g).map Prod.fst ∧ l.Nodup ∧ 0 < l.length ∧
    chars g (l.getD 0 "") = trivial g ∧
    ∀ i < l.length, ∀ j < l.length, i ^^^ j < l.length ∧ prod (chars g (l.getD i "")) (chars g (l.getD j "")) = chars g (l.getD (i ^^^ j) "") ∧
      (chars g (l.getD i "") = chars g (l.getD j "") → i = j) := by
  intro g hg
  simp only [groups, List.mem_cons, List.not_mem_nil, or_false] at hg
  rcases hg with rfl | rfl | rfl | rfl | rfl | rfl | rfl | rfl <;> refine ⟨_, rfl, rfl, ?_⟩ <;> decide

theorem lookup_isSome (s : String) : (∃ l, pointGroupToIrreps.lookup s = some l) ↔ s ∈ groups := by
  constructor
  · rintro ⟨l, h⟩
    by_contra hn
    have : pointGroupToIrreps.lookup s = none := by
      rw [List.lookup_eq_none_iff]
      intro p hp
      simp only [pointGroupToIrreps, List.mem_cons, List.not_mem_nil, or_false] at hp
      simp only [groups, List.mem_cons, List.not_mem_nil, or_false, not_or] at hn
      rcases hp with rfl | rfl | rfl | rfl | rfl | rfl | rfl | rfl <;> simp [hn]
    rw [this] at h; cases h
  · intro h
    obtain ⟨l, h, _⟩ := table_xor s h
    exact ⟨l, h⟩

/-- **C91.** `irreps_of_point_groups` accepts exactly the eight groups, in any mixture of upper and lower case, and returns all
irreps of the group, each once, the totally symmetric one first; on any other string it raises `ValueError`. -/
theorem C91_irreps (pg : String) : (pyLower pg ∈ groups → irrepsOfPointGroups pg = .ok ((table (pyLower pg)).map Prod.fst) ∧
      ((table (pyLower pg)).map Prod.fst).Nodup ∧ ((table (pyLower pg)).head?.map Prod.snd) = some (trivial (pyLower pg))) ∧
    (pyLower pg ∉ groups → irrepsOfPointGroups pg = .error .valueError) := by
  constructor
  · intro h
    obtain ⟨l, h1, h2, h3, _⟩ := table_xor _ h
    refine ⟨by unfold irrepsOfPointGroups; rw [h1, h2], h2 ▸ h3, ?_⟩
    have : ∀ g ∈ groups, (table g).head?.map Prod.snd = some (trivial g) := by decide
    exact this _ h
  · intro h
    unfold irrepsOfPointGroups
    cases e : pointGroupToIrreps.lookup (pyLower pg) with
    | none => rfl
    | some l => exact absurd ((lookup_isSome _).1 ⟨l, e⟩) h

/-- the characters of the direct product of the irreps of spin orbitals, for orbital irreps numbered as in `irreps` -/
def productChars (g : String) (irreps : List String) (orb : List ℕ) (idx : List ℕ) : List ℤ :=
  (idx.map fun i => chars g (irreps.getD (orb.getD (i / 2) 0) "")).foldr prod (trivial g)

theorem foldr_chars {g : String} (hg : g ∈ groups) {l : List String} (hl : pointGroupToIrreps.lookup g = some l) (rs : List ℕ)
    (h : ∀ r ∈ rs, r < l.length) : rs.foldr (· ^^^ ·) 0 < l.length ∧
      chars g (l.getD (rs.foldr (· ^^^ ·) 0) "") = (rs.map fun r => chars g (l.getD r "")).foldr prod (trivial g) := by
  obtain ⟨l', h1, _, _, h4, h5, h6⟩ := table_xor g hg
  rw [hl] at h1; cases h1
  induction rs with
  | nil => exact ⟨h4, h5⟩
  | cons r rs ih =>
    obtain ⟨i1, i2⟩ := ih fun r' h' => h r' (by simp [h'])
    obtain ⟨k1, k2, _⟩ := h6 r (h r (by simp)) _ i1
    rw [List.foldr_cons, List.map_cons, List.foldr_cons, ← i2]
    exact ⟨k1, k2.symm⟩

/-- **C91.** Whatever spin orbitals are given, however many and in whatever order: with orbital irreps numbered by their position
in the list `irreps_of_point_groups` returns, `find_irrep` returns the position of the irrep whose characters are the
product of the characters of the irreps of the orbitals. -/
theorem C91_find_irrep (pg : String) (irreps : List String) (hp : irrepsOfPointGroups pg = .ok irreps) (orb idx : List ℕ)
    (ho : ∀ r ∈ orb, r < irreps.length) (hi : ∀ i ∈ idx, i / 2 < orb.length) :
    ∃ k s, findIrrep orb idx = .ok k ∧ irreps[k]? = some s ∧
      chars (pyLower pg) s = productChars (pyLower pg) irreps orb idx ∧
      (k = 0 ↔ productChars (pyLower pg) irreps orb idx = trivial (pyLower pg)) := by
  have hg : pyLower pg ∈ groups := by
    by_contra h
    rw [(C91_irreps pg).2 h] at hp; cases hp
  have hl : pointGroupToIrreps.lookup (pyLower pg) = some irreps := by
    unfold irrepsOfPointGroups at hp
    cases e : pointGroupToIrreps.lookup (pyLower pg) with
    | none => rw [e] at hp; cases hp
    | some l => rw [e] at hp; rw [Except.ok.inj hp]
  obtain ⟨h1, h2⟩ := foldr_chars hg hl (idx.map fun i => orb.getD (i / 2) 0) (by
    intro r hr
    obtain ⟨i, hi', rfl⟩ := List.mem_map.1 hr
    rw [List.getD_eq_getElem _ _ (hi i hi')]
    exact ho _ (List.getElem_mem _))
  rw [List.map_map] at h2
  refine ⟨_, _, C45_value orb idx hi, List.getElem?_eq_getElem h1, ?_, ?_⟩
  · rw [List.getD_eq_getElem _ _ h1] at h2
    rw [h2]; rfl
  · obtain ⟨l', g1, _, _, g4, g5, g6⟩ := table_xor _ hg
    rw [hl] at g1; cases g1
    have e : chars (pyLower pg) (irreps.getD ((idx.map fun i => orb.getD (i / 2) 0).foldr (· ^^^ ·) 0) "") = productChars (pyLower pg) irreps orb idx := h2
    constructor
    · intro h0
      rw [← e, h0, g5]
    · intro h0
      rw [h0, ← g5] at e
      exact (g6 _ h1 0 g4).2.2 e

/-- **C91.** `char_table` prints the table of direct products: row `i`, column `j` holds the irrep whose characters are the products of
the characters of irreps `i` and `j`. -/
theorem C91_char_table (pg : String) (irreps : List String) (hp : irrepsOfPointGroups pg = .ok irreps) :
    ∃ T, charTable pg irreps = .ok T ∧ T.length = irreps.length ∧ ∀ i j, i < irreps.length → j < irreps.length →
      ∃ row s, T[i]? = some row ∧ row[j]? = some s ∧ s ∈ irreps ∧
        chars (pyLower pg) s = prod (chars (pyLower pg) (irreps.getD i "")) (chars (pyLower pg) (irreps.getD j "")) := by
  have hg : pyLower pg ∈ groups := by
    by_contra h
    rw [(C91_irreps pg).2 h] at hp; cases hp
  have hl : pointGroupToIrreps.lookup (pyLower pg) = some irreps := by
    unfold irrepsOfPointGroups at hp
    cases e : pointGroupToIrreps.lookup (pyLower pg) with
    | none => rw [e] at hp; cases hp
    | some l => rw [e] at hp; rw [Except.ok.inj hp]
  obtain ⟨l', g1, _, _, g4, g5, g6⟩ := table_xor _ hg
  rw [hl] at g1; cases g1
  have hT : charTable pg irreps = .ok ((List.range irreps.length).map fun i => (List.range irreps.length).map fun j => irreps.getD (i ^^^ j) "") := by
    unfold charTable
    rw [if_neg (show ¬ pyLower pg ∉ ["c1", "c2", "ci", "cs", "d2", "c2h", "c2v", "d2h"] from not_not_intro hg)]
    apply mapM_ok
    intro i hi
    apply mapM_ok
    intro j hj
    have := (g6 i (List.mem_range.1 hi) j (List.mem_range.1 hj)).1
    rw [List.getElem?_eq_getElem this, List.getD_eq_getElem _ _ this]
  refine ⟨_, hT, by simp, fun i j hi hj => ?_⟩
  obtain ⟨k1, k2, _⟩ := g6 i hi j hj
  refine ⟨(List.range irreps.length).map fun j => irreps.getD (i ^^^ j) "", irreps.getD (i ^^^ j) "", ?_, ?_, ?_, k2.symm⟩
  · simp [hi]
  · simp [hj]
  · rw [List.getD_eq_getElem _ _ k1]; exact List.getElem_mem _

/-- the orbitals of a bent molecule, one electron in an a1 and one in a b2 orbital: total irrep B2 -/
theorem C91_example : irrepsOfPointGroups "C2v" = .ok ["A1", "A2", "B1", "B2"] ∧ findIrrep [0, 3, 2] [0, 3] = .ok 3 ∧
    productChars "c2v" ["A1", "A2", "B1", "B2"] [0, 3, 2] [0, 3] = [1, -1, -1, 1] := by
  refine ⟨by decide, by decide, by decide⟩

end QF
