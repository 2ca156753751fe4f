import Verif.Model.SQPool2
import Verif.Props.UCCPool

/-!
C63: the generalised singles and doubles pool.
-/
namespace QF
namespace SQOpPool
open SQOperator

/-- a loop that keeps an invariant of what has been processed and never raises -/
theorem foldlM_inv {σ α : Type*} (f : σ → α → Except Exc σ) (Inv : List α → σ → Prop) (l : List α)
    (h : ∀ done x s, x ∈ l → Inv done s → ∃ s', f s x = .ok s' ∧ Inv (done ++ [x]) s') :
    ∀ (done : List α) (s : σ), Inv done s → ∃ s', l.foldlM f s = .ok s' ∧ Inv (done ++ l) s' := by
  induction l with
  | nil => intro done s hs; exact ⟨s, rfl, by rwa [List.append_nil]⟩
  | cons x l ih =>
    intro done s hs
    obtain ⟨s1, e1, h1⟩ := h done x s List.mem_cons_self hs
    obtain ⟨s2, e2, h2⟩ := ih (fun d y t hy ht => h d y t (List.mem_cons_of_mem _ hy) ht) _ s1 h1
    refine ⟨s2, ?_, by rwa [List.append_assoc] at h2⟩
    rw [List.foldlM_cons, e1]; exact e2

/-- the two indices, larger first -/
def desc2 (x y : ℕ) : List ℕ := if y < x then [x, y] else [y, x]

theorem desc2_sorted {x y : ℕ} (h : x ≠ y) : (desc2 x y).Pairwise fun p q => q < p := by
  unfold desc2; split <;> simp <;> omega

theorem desc2_prod (b : Bool) {x y : ℕ} (h : x ≠ y) : ([x, y].map (ladder b)).prod = (if y < x then (1 : ℂ) else -1) • ((desc2 x y).map (ladder b)).prod := by
  unfold desc2
  split
  · rw [one_smul]
  · simp only [List.map_cons, List.map_nil, List.prod_cons, List.prod_nil, mul_one]
    rw [ladder_anticomm_ne b b h]
    apply Op.ext'; intro ψ I; simp

theorem fermi2 {c0 c1 a0 a1 : ℕ} (hc : c0 ≠ c1) (ha : a0 ≠ a1) : ∃ s : ℂ, (s = 1 ∨ s = -1) ∧ fermiString [c0, c1] [a0, a1] = s • fermiString (desc2 c0 c1) (desc2 a0 a1) ∧
    fermiString [a0, a1] [c0, c1] = s • fermiString (desc2 a0 a1) (desc2 c0 c1) := by
  refine ⟨(if c1 < c0 then 1 else -1) * (if a1 < a0 then 1 else -1), by split <;> split <;> norm_num, ?_, ?_⟩
  · unfold fermiString
    rw [desc2_prod true hc, desc2_prod false ha, smul_mul_assoc, mul_smul_comm, smul_smul]
  · unfold fermiString
    rw [desc2_prod false hc, desc2_prod true ha, smul_mul_assoc, mul_smul_comm, smul_smul, mul_comm]

theorem fermi_double_op {c0 c1 a0 a1 : ℕ} (hc : c0 ≠ c1) (ha : a0 ≠ a1) :
    SQOperator.op ((SQOperator.addTerm [] 1 [c0, c1] [a0, a1]).addTerm (-1) [a1, a0] [c1, c0]) = fermiString [c0, c1] [a0, a1] - fermiString [a0, a1] [c0, c1] := by
  simp only [SQOperator.op, SQOperator.addTerm, List.nil_append, List.map_append, List.map_cons, List.map_nil, List.sum_append, List.sum_cons, List.sum_nil, add_zero, one_smul]
  have := fermiString_reverse (c := [a0, a1]) (a := [c0, c1]) (by simpa using ha) (by simpa using hc) rfl
  simp only [List.reverse_cons, List.reverse_nil, List.nil_append, List.singleton_append] at this
  rw [this]
  exact op_sub₁ _ _

/-- the operator of one spin case: nothing if the two pairs are the same, else the excitation or its negative -/
theorem double_simplify (o : DescSort) {c0 c1 a0 a1 : ℕ} (hc : c0 ≠ c1) (ha : a0 ≠ a1) :
    (desc2 c0 c1 = desc2 a0 a1 ∧ simplify o ((SQOperator.addTerm [] 1 [c0, c1] [a0, a1]).addTerm (-1) [a1, a0] [c1, c0]) = .ok []) ∨
    (desc2 c0 c1 ≠ desc2 a0 a1 ∧ ∃ k : Key, (k = (desc2 c0 c1, desc2 a0 a1) ∨ k = (desc2 a0 a1, desc2 c0 c1)) ∧
      simplify o ((SQOperator.addTerm [] 1 [c0, c1] [a0, a1]).addTerm (-1) [a1, a0] [c1, c0]) = .ok (excTerms k.1 k.2)) := by
  have hd : SQOperator.Distinct ((SQOperator.addTerm [] 1 [c0, c1] [a0, a1]).addTerm (-1) [a1, a0] [c1, c0]) := by
    intro t ht
    simp only [SQOperator.addTerm, List.nil_append, List.mem_append, List.mem_singleton] at ht
    rcases ht with rfl | rfl <;> simp [hc, ha, Ne.symm hc, Ne.symm ha]
  have hop := fermi_double_op hc ha
  obtain ⟨s, hs, e1, e2⟩ := fermi2 hc ha
  rw [e1, e2] at hop
  by_cases h : desc2 c0 c1 = desc2 a0 a1
  · left
    refine ⟨h, ?_⟩
    apply simplify_target o _ [] hd (by simp) (by simp) (by simp)
    rw [hop, h]
    apply Op.ext'; intro ψ I; simp [SQOperator.op]
  · right
    refine ⟨h, ?_⟩
    rcases hs with rfl | rfl
    · refine ⟨(desc2 c0 c1, desc2 a0 a1), .inl rfl, simplify_exc o _ hd (desc2_sorted hc) (desc2_sorted ha) h ?_⟩
      rw [hop, one_smul, one_smul]
    · refine ⟨(desc2 a0 a1, desc2 c0 c1), .inr rfl, simplify_exc o _ hd (desc2_sorted ha) (desc2_sorted hc) (Ne.symm h) ?_⟩
      rw [hop]
      apply Op.ext'; intro ψ I; simp; ring

/-- the key of the first stored term -/
def lead (k : Key) : Key := if klt k k.swap then k else k.swap

theorem lead_swap {k : Key} (h : k.1 ≠ k.2) : lead k.swap = lead k := by
  unfold lead
  rw [Prod.swap_swap]
  by_cases h1 : klt k k.swap = true
  · rw [if_pos h1, if_neg]
    intro h2; exact klt_irrefl _ (klt_trans h1 h2)
  · rw [if_neg h1, if_pos]
    by_contra h2
    have := klt_eq h1 h2
    exact h (congrArg Prod.fst this)

theorem lead_cases (k : Key) : lead k = k ∨ lead k = k.swap := by unfold lead; split <;> simp

theorem lead_eq_iff {k k' : Key} (h : k.1 ≠ k.2) : lead k = lead k' ↔ k' = k ∨ k' = k.swap := by
  constructor
  · intro e
    rcases lead_cases k with h1 | h1 <;> rcases lead_cases k' with h2 | h2 <;> rw [h1, h2] at e
    · exact .inl e.symm
    · right; rw [e, Prod.swap_swap]
    · exact .inr e.symm
    · left; exact (Prod.swap_injective e).symm
  · rintro (rfl | rfl)
    · rfl
    · rw [lead_swap h]

/-- a stored lead is never the adjoint of another -/
theorem lead_ne_swap {k k' : Key} (h : k.1 ≠ k.2) : lead k ≠ (lead k').swap := by
  intro e
  have g : ∀ k : Key, k.1 ≠ k.2 → klt (lead k) (lead k).swap = true := by
    intro k h
    unfold lead
    by_cases h1 : klt k k.swap = true
    · rw [if_pos h1]; exact h1
    · rw [if_neg h1, Prod.swap_swap]
      by_contra h2
      exact h (congrArg Prod.fst (klt_eq h1 h2))
  have h' : k'.1 ≠ k'.2 := by
    intro e'
    have s : k'.swap = k' := Prod.ext e'.symm e'
    rcases lead_cases k' with h2 | h2 <;> rw [h2] at e
    · rw [s] at e
      rcases lead_cases k with h1 | h1 <;> rw [h1] at e
      · exact h (by rw [e]; exact e')
      · exact h (by have := congrArg Prod.swap e; rw [Prod.swap_swap, s] at this; rw [this]; exact e')
    · rw [Prod.swap_swap] at e
      rcases lead_cases k with h1 | h1 <;> rw [h1] at e
      · exact h (by rw [e]; exact e')
      · exact h (by have := congrArg Prod.swap e; rw [Prod.swap_swap, s] at this; rw [this]; exact e')
  have a1 := g k h
  have a2 := g k' h'
  rw [e, Prod.swap_swap] at a1
  exact klt_irrefl _ (klt_trans a1 a2)

/-- two pairs of indices -/
def Two (k : Key) : Prop := k.1.length = 2 ∧ k.2.length = 2

theorem fourIdx_exc {k : Key} (h2 : Two k) : fourIdx (excTerms k.1 k.2) 0 = .ok ((lead k).1 ++ (lead k).2) ∧
    fourIdx (excTerms k.1 k.2) 1 = .ok ((lead k).2 ++ (lead k).1) := by
  obtain ⟨c, a⟩ := k
  obtain ⟨h1, h2⟩ := h2
  match c, a, h1, h2 with
  | [c0, c1], [a0, a1], _, _ =>
    unfold excTerms lead
    simp only [Prod.swap]
    by_cases h : klt ([c0, c1], [a0, a1]) ([a0, a1], [c0, c1]) = true
    · rw [if_pos h, if_pos h]; exact ⟨rfl, rfl⟩
    · rw [if_neg h, if_neg h]; exact ⟨rfl, rfl⟩

theorem flat_inj {k k' : Key} (h : k.1.length = k'.1.length) (e : k.1 ++ k.2 = k'.1 ++ k'.2) : k = k' := by
  obtain ⟨h1, h2⟩ := List.append_inj e h
  exact Prod.ext h1 h2

theorem two_lead {k : Key} (h : Two k) : Two (lead k) := by
  rcases lead_cases k with e | e <;> rw [e]
  · exact h
  · exact ⟨h.2, h.1⟩

theorem desc2_length (x y : ℕ) : (desc2 x y).length = 2 := by unfold desc2; split <;> rfl

theorem excTerms_length (c a : List ℕ) : (excTerms c a).length = 2 := by unfold excTerms; split <;> rfl

abbrev Cand := ℕ × ℕ × ℕ × ℕ
/-- the excitation of one spin case -/
def keyOf (y : Cand) : Key := (desc2 y.1 y.2.1, desc2 y.2.2.1 y.2.2.2)
def Proper (y : Cand) : Prop := y.1 ≠ y.2.1 ∧ y.2.2.1 ≠ y.2.2.2 ∧ (keyOf y).1 ≠ (keyOf y).2

/-- what holds after the candidates `done` -/
structure GsdInv (P₀ : SQOpPool) (done : List Cand) (s : GsdState) : Prop where
  ex : ∃ keys : List Key, s.1 = { P₀ with terms := P₀.terms ++ keys.map fun k => (1, excTerms k.1 k.2) } ∧
    s.2.1 = keys.map (fun k => (lead k).1 ++ (lead k).2) ∧ s.2.2 = keys.map (fun k => (lead k).2 ++ (lead k).1) ∧
    (∀ k ∈ keys, ∃ y ∈ done, Proper y ∧ (k = keyOf y ∨ k = (keyOf y).swap)) ∧
    (∀ y ∈ done, Proper y → lead (keyOf y) ∈ keys.map lead) ∧ (keys.map lead).Nodup

theorem gsdDouble_inv (o : DescSort) (P₀ : SQOpPool) (done : List Cand) (y : Cand) (s : GsdState) (h : GsdInv P₀ done s) :
    ∃ s', gsdDouble o y.1 y.2.1 y.2.2.1 y.2.2.2 s = .ok s' ∧ GsdInv P₀ (done ++ [y]) s' := by
  obtain ⟨keys, e1, e2, e3, h4, h5, h6⟩ := h.ex
  have h4' : ∀ k ∈ keys, ∃ z ∈ done ++ [y], Proper z ∧ (k = keyOf z ∨ k = (keyOf z).swap) := by
    intro k hk; obtain ⟨z, hz, r⟩ := h4 k hk; exact ⟨z, List.mem_append_left _ hz, r⟩
  have same : (Proper y → lead (keyOf y) ∈ keys.map lead) → GsdInv P₀ (done ++ [y]) s := by
    intro hp
    refine ⟨keys, e1, e2, e3, h4', ?_, h6⟩
    intro z hz hpz
    rcases List.mem_append.1 hz with hz | hz
    · exact h5 z hz hpz
    · rw [List.mem_singleton] at hz; subst hz; exact hp hpz
  unfold gsdDouble
  by_cases hne : y.1 ≠ y.2.1 ∧ y.2.2.1 ≠ y.2.2.2
  swap
  · rw [if_neg hne]
    exact ⟨s, rfl, same fun hp => absurd ⟨hp.1, hp.2.1⟩ hne⟩
  rw [if_pos hne]
  rcases double_simplify o hne.1 hne.2 with ⟨heq, es⟩ | ⟨hneq, k, hk, es⟩
  · rw [es, except_ok_bind, if_neg (by simp)]
    exact ⟨s, rfl, same fun hp => absurd heq hp.2.2⟩
  · rw [es, except_ok_bind, if_pos (by rw [excTerms_length]; omega)]
    have hk2 : Two k := by rcases hk with rfl | rfl <;> exact ⟨desc2_length _ _, desc2_length _ _⟩
    have hkne : k.1 ≠ k.2 := by rcases hk with rfl | rfl; exact hneq; exact Ne.symm hneq
    have hpy : Proper y := ⟨hne.1, hne.2, hneq⟩
    have hlead : lead (keyOf y) = lead k := by
      rcases hk with rfl | rfl
      · rfl
      · exact (lead_swap (k := keyOf y) hneq).symm
    obtain ⟨f0, f1⟩ := fourIdx_exc hk2
    have two : ∀ k' ∈ keys, Two k' := by
      intro k' hk'
      obtain ⟨z, _, _, hz⟩ := h4 k' hk'
      rcases hz with rfl | rfl <;> exact ⟨desc2_length _ _, desc2_length _ _⟩
    have iff1 : (lead k).1 ++ (lead k).2 ∈ s.2.1 ↔ lead k ∈ keys.map lead := by
      rw [e2, List.mem_map, List.mem_map]
      constructor
      · rintro ⟨k', hk', e⟩
        exact ⟨k', hk', flat_inj (by rw [(two_lead (two k' hk')).1, (two_lead hk2).1]) e⟩
      · rintro ⟨k', hk', e⟩
        exact ⟨k', hk', by rw [e]⟩
    have not2 : (lead k).1 ++ (lead k).2 ∉ s.2.2 := by
      rw [e3, List.mem_map]
      rintro ⟨k', hk', e⟩
      have := flat_inj (k := (lead k').swap) (k' := lead k) (by rw [(two_lead hk2).1]; exact (two_lead (two k' hk')).2) e
      exact lead_ne_swap hkne this.symm
    rw [f0, except_ok_bind, f1, except_ok_bind]
    by_cases hm : lead k ∈ keys.map lead
    · rw [if_neg (by rw [iff1]; simpa using hm)]
      exact ⟨s, rfl, same fun _ => hlead ▸ hm⟩
    · rw [if_pos (by rw [iff1]; exact hm), if_pos not2]
      refine ⟨_, rfl, keys ++ [k], ?_, ?_, ?_, ?_, ?_, ?_⟩
      · simp [SQOpPool.addTerm, e1]
      · simp [e2]
      · simp [e3]
      · intro k' hk'
        rcases List.mem_append.1 hk' with hk' | hk'
        · exact h4' k' hk'
        · rw [List.mem_singleton] at hk'; subst hk'
          exact ⟨y, by simp, hpy, by rcases hk with rfl | rfl; exact .inl rfl; exact .inr rfl⟩
      · intro z hz hpz
        rw [List.map_append, List.mem_append]
        rcases List.mem_append.1 hz with hz | hz
        · exact .inl (h5 z hz hpz)
        · rw [List.mem_singleton] at hz; subst hz
          right; rw [hlead]; simp
      · rw [List.map_append, List.nodup_append]
        refine ⟨h6, by simp, ?_⟩
        intro a ha b hb e
        simp only [List.map_cons, List.map_nil, List.mem_singleton] at hb
        subst hb; subst e
        exact hm ha

/-! ### the loops -/

theorem mem_upFrom {i m x : ℕ} : x ∈ upFrom i m ↔ i ≤ x ∧ x < m := by
  unfold upFrom
  rw [List.mem_map]
  constructor
  · rintro ⟨y, hy, rfl⟩; have := List.mem_range.1 hy; omega
  · rintro ⟨h1, h2⟩; exact ⟨x - i, List.mem_range.2 (by omega), by omega⟩

theorem mem_gsdPairs {m : ℕ} {x : ℕ × ℕ} : x ∈ gsdPairs m ↔ x.1 ≤ x.2 ∧ x.2 < m := by
  unfold gsdPairs
  simp only [List.mem_flatMap, List.mem_map, mem_upFrom, List.mem_range]
  constructor
  · rintro ⟨i, hi, a, ha, rfl⟩; exact ha
  · rintro ⟨h1, h2⟩; exact ⟨x.1, by omega, x.2, ⟨h1, h2⟩, rfl⟩

theorem mem_gsdQuads {m m' : ℕ} {x : ℕ × ℕ × ℕ × ℕ} : x ∈ gsdQuads m m' ↔ (x.1 ≤ x.2.1 ∧ x.2.1 < m) ∧ x.2.2.1 ≤ x.2.2.2 ∧ x.2.2.2 < m' := by
  unfold gsdQuads
  simp only [List.mem_flatMap, List.mem_map, mem_upFrom, List.mem_range]
  constructor
  · rintro ⟨i, hi, j, hj, a, ha, b, hb, rfl⟩; exact ⟨hj, hb⟩
  · rintro ⟨h1, h2⟩; exact ⟨x.1, by omega, x.2.1, h1, x.2.2.1, by omega, x.2.2.2, h2, rfl⟩

theorem gsdPairs_nodup (m : ℕ) : (gsdPairs m).Nodup := by
  unfold gsdPairs
  rw [List.nodup_flatMap]
  constructor
  · intro i _
    unfold upFrom
    rw [List.map_map]
    apply List.Nodup.map_on _ List.nodup_range
    intro x _ y _ e
    simpa using e
  · apply List.Pairwise.imp_of_mem _ (List.nodup_iff_pairwise_ne.1 (List.nodup_range (n := m)))
    intro i j _ _ hne
    show List.Disjoint _ _
    intro x hx hx'
    obtain ⟨a, _, rfl⟩ := List.mem_map.1 hx
    obtain ⟨b, _, e⟩ := List.mem_map.1 hx'
    exact hne (congrArg Prod.fst e).symm

/-- the doubles candidates of the quadruples processed -/
def candsOf (irr : List ℕ) (quads : List (ℕ × ℕ × ℕ × ℕ)) : List Cand :=
  quads.flatMap fun x => if irrepOf irr [2 * x.1, 2 * x.2.1, 2 * x.2.2.1, 2 * x.2.2.2] = 0 then gsdCases x.1 x.2.1 x.2.2.1 x.2.2.2 else []

theorem gsdDoubles_inv (o : DescSort) (P₀ : SQOpPool) {k : ℕ} (hi : k ≤ P₀.orbIrreps.length) :
    ∃ s, (gsdQuads k k).foldlM (gsdDoubles o) (P₀, [], []) = .ok s ∧ GsdInv P₀ (candsOf P₀.orbIrreps (gsdQuads k k)) s := by
  have start : GsdInv P₀ (candsOf P₀.orbIrreps []) (P₀, [], []) := ⟨[], by simp, rfl, rfl, by simp, by simp [candsOf], by simp⟩
  have := foldlM_inv (gsdDoubles o) (fun done s => GsdInv P₀ (candsOf P₀.orbIrreps done) s) (gsdQuads k k) ?_ [] _ start
  · simpa using this
  intro done x s hx hs
  have hirr : s.1.orbIrreps = P₀.orbIrreps := by obtain ⟨keys, e, _⟩ := hs.ex; rw [e]
  obtain ⟨i, j, a, b⟩ := x
  have hx : (i ≤ j ∧ j < k) ∧ a ≤ b ∧ b < k := mem_gsdQuads.1 hx
  have hv : findIrrep P₀.orbIrreps [2 * i, 2 * j, 2 * a, 2 * b] = .ok (irrepOf P₀.orbIrreps [2 * i, 2 * j, 2 * a, 2 * b]) := by
    apply C45_value
    intro p hp
    simp only [List.mem_cons, List.not_mem_nil, or_false] at hp
    omega
  have hap : candsOf P₀.orbIrreps (done ++ [(i, j, a, b)]) = candsOf P₀.orbIrreps done ++
      if irrepOf P₀.orbIrreps [2 * i, 2 * j, 2 * a, 2 * b] = 0 then gsdCases i j a b else [] := by
    unfold candsOf; rw [List.flatMap_append]; simp
  unfold gsdDoubles
  simp only [hirr, hv, except_ok_bind]
  rw [hap]
  by_cases hz : irrepOf P₀.orbIrreps [2 * i, 2 * j, 2 * a, 2 * b] = 0
  · rw [if_pos hz, if_pos hz]
    exact foldlM_inv _ (GsdInv P₀) (gsdCases i j a b) (fun d y t _ ht => gsdDouble_inv o P₀ d y t ht) _ s hs
  · rw [if_neg hz, if_neg hz, List.append_nil]; exact ⟨s, rfl, hs⟩

/-! ### the singles -/

/-- the excitations the singles loop adds for one pair of spatial orbitals -/
def singleKeys (irr : List ℕ) (x : ℕ × ℕ) : List Key :=
  if irrepOf irr [2 * x.1, 2 * x.2] = 0 ∧ x.1 ≠ x.2 then [([2 * x.2], [2 * x.1]), ([2 * x.2 + 1], [2 * x.1 + 1])] else []

theorem gsdSingle_spec (o : DescSort) (q p : ℕ) (P : SQOpPool) :
    gsdSingle o q p P = .ok (if q ≠ p then P.addTerm 1 (excTerms [q] [p]) else P) := by
  unfold gsdSingle
  by_cases h : q ≠ p
  · rw [if_pos h, if_pos h]
    have : simplify o ((SQOperator.addTerm [] 1 [q] [p]).addTerm (-1) [p] [q]) = .ok (excTerms [q] [p]) := by
      apply simplify_exc o _ _ (by simp) (by simp) (by simpa using h)
      · simp only [SQOperator.op, SQOperator.addTerm, List.nil_append, List.map_append, List.map_cons, List.map_nil, List.sum_append, List.sum_cons, List.sum_nil, add_zero, one_smul]
        exact op_sub₁ _ _
      · intro t ht
        simp only [SQOperator.addTerm, List.nil_append, List.mem_append, List.mem_singleton] at ht
        rcases ht with rfl | rfl <;> simp
    rw [this, except_ok_bind, if_pos (by rw [excTerms_length]; omega)]; rfl
  · rw [if_neg h, if_neg h]; rfl

theorem gsdSingles_spec (o : DescSort) (P : SQOpPool) (i a : ℕ) (h : i < P.orbIrreps.length) (h' : a < P.orbIrreps.length) :
    gsdSingles o P (i, a) = .ok { P with terms := P.terms ++ (singleKeys P.orbIrreps (i, a)).map fun k => (1, excTerms k.1 k.2) } := by
  unfold gsdSingles
  have hv : findIrrep P.orbIrreps [2 * i, 2 * a] = .ok (irrepOf P.orbIrreps [2 * i, 2 * a]) := by
    apply C45_value
    intro p hp
    simp only [List.mem_cons, List.not_mem_nil, or_false] at hp
    omega
  simp only [hv, except_ok_bind, gsdSingle_spec, singleKeys]
  by_cases hz : irrepOf P.orbIrreps [2 * i, 2 * a] = 0
  · by_cases hia : i = a
    · subst hia; simp [hz]
    · rw [if_pos hz, if_pos (show 2 * a ≠ 2 * i by omega), if_pos (show 2 * a + 1 ≠ 2 * i + 1 by omega), if_pos ⟨hz, hia⟩]
      simp [SQOpPool.addTerm]
  · rw [if_neg hz, if_neg (fun h => hz h.1)]; simp [pure, Except.pure]

theorem gsdSingles_fold (o : DescSort) (l : List (ℕ × ℕ)) : ∀ (P : SQOpPool), (∀ x ∈ l, x.1 < P.orbIrreps.length ∧ x.2 < P.orbIrreps.length) →
    l.foldlM (gsdSingles o) P = .ok { P with terms := P.terms ++ (l.flatMap (singleKeys P.orbIrreps)).map fun k => (1, excTerms k.1 k.2) } := by
  induction l with
  | nil => intro P _; simp [pure, Except.pure]
  | cons x l ih =>
    intro P h
    have hx := h x List.mem_cons_self
    rw [List.foldlM_cons, show x = (x.1, x.2) from rfl, gsdSingles_spec o P x.1 x.2 hx.1 hx.2, except_ok_bind]
    have := ih { P with terms := P.terms ++ (singleKeys P.orbIrreps (x.1, x.2)).map fun k => (1, excTerms k.1 k.2) } (fun y hy => h y (List.mem_cons_of_mem _ hy))
    rw [this]
    simp

/-! ### counting -/

theorem count_lead {k : Key} (h : k.1 ≠ k.2) (keys : List Key) : keys.count k + keys.count k.swap = (keys.map lead).count (lead k) := by
  have hs : k ≠ k.swap := fun e => h (congrArg Prod.fst e)
  induction keys with
  | nil => rfl
  | cons x keys ih =>
    rw [List.map_cons, List.count_cons, List.count_cons, List.count_cons, ← ih]
    have : lead x = lead k ↔ x = k ∨ x = k.swap := by rw [eq_comm, lead_eq_iff h]
    simp only [beq_iff_eq]
    by_cases h1 : x = k
    · have h2 : x ≠ k.swap := by rw [h1]; exact hs
      rw [if_pos h1, if_neg h2, if_pos (this.2 (.inl h1))]; omega
    · by_cases h2 : x = k.swap
      · rw [if_neg h1, if_pos h2, if_pos (this.2 (.inr h2))]; omega
      · rw [if_neg h1, if_neg h2, if_neg (fun e => (this.1 e).elim h1 h2)]; rfl

/-! ### what the candidates are -/

theorem irrepOf_append (irr a b : List ℕ) : irrepOf irr (a ++ b) = irrepOf irr a ^^^ irrepOf irr b := by
  unfold irrepOf
  rw [List.map_append, List.foldr_append]
  induction a with
  | nil => simp
  | cons x a ih => simp only [List.map_cons, List.foldr_cons, ih, Nat.xor_assoc]

theorem _root_.QF.GenExc.swap {k : ℕ} {irr : List ℕ} {x : Key} (h : GenExc k irr x) : GenExc k irr x.swap :=
  ⟨⟨h.desc.2, h.desc.1⟩, ⟨h.bound.2, h.bound.1⟩, h.rank.imp (fun h => ⟨h.2, h.1⟩) (fun h => ⟨h.2, h.1⟩), h.ne.symm, h.spin.symm,
    by have := h.sym; rw [irrepOf_append, Nat.xor_comm, ← irrepOf_append] at this; exact this⟩

theorem irrepOf_desc2 (irr : List ℕ) (x y : ℕ) : irrepOf irr (desc2 x y) = irr.getD (x / 2) 0 ^^^ irr.getD (y / 2) 0 := by
  unfold desc2 irrepOf
  split <;> simp only [List.map_cons, List.map_nil, List.foldr_cons, List.foldr_nil, Nat.xor_zero]
  exact Nat.xor_comm _ _

theorem mem_desc2 {x y p : ℕ} : p ∈ desc2 x y ↔ p = x ∨ p = y := by unfold desc2; split <;> simp [or_comm]

theorem even_desc2 (x y : ℕ) : ((desc2 x y).countP fun p => p % 2 == 0) = (if x % 2 = 0 then 1 else 0) + if y % 2 = 0 then 1 else 0 := by
  unfold desc2; split <;> simp only [List.countP_cons, List.countP_nil, beq_iff_eq] <;> omega

theorem irrep4 (irr : List ℕ) (i j a b : ℕ) : irrepOf irr [2 * i, 2 * j, 2 * a, 2 * b] =
    (irr.getD i 0 ^^^ irr.getD j 0) ^^^ (irr.getD a 0 ^^^ irr.getD b 0) := by
  unfold irrepOf
  simp [Nat.xor_assoc]

theorem cand_gen {k : ℕ} {irr : List ℕ} {y : Cand} (hy : y ∈ candsOf irr (gsdQuads k k)) (hp : Proper y) : GenExc k irr (keyOf y) := by
  unfold candsOf at hy
  rw [List.mem_flatMap] at hy
  obtain ⟨⟨i, j, a, b⟩, hq, hy⟩ := hy
  have hq : (i ≤ j ∧ j < k) ∧ a ≤ b ∧ b < k := mem_gsdQuads.1 hq
  simp only at hy
  split at hy
  swap
  · simp at hy
  rename_i hz
  rw [irrep4] at hz
  obtain ⟨c0, c1, a0, a1⟩ := y
  have hb : (c0 < 2 * k ∧ c1 < 2 * k) ∧ (a0 < 2 * k ∧ a1 < 2 * k) ∧ c0 / 2 = a ∧ c1 / 2 = b ∧ a0 / 2 = i ∧ a1 / 2 = j ∧
      ((if c0 % 2 = 0 then 1 else 0) + if c1 % 2 = 0 then 1 else 0) = (if a0 % 2 = 0 then 1 else 0) + if a1 % 2 = 0 then 1 else 0 := by
    simp only [gsdCases, List.mem_cons, List.not_mem_nil, or_false, Prod.mk.injEq] at hy
    rcases hy with h | h | h | h | h | h <;> obtain ⟨rfl, rfl, rfl, rfl⟩ := h <;>
      refine ⟨⟨by omega, by omega⟩, ⟨by omega, by omega⟩, by omega, by omega, by omega, by omega, ?_⟩ <;>
      simp only [Nat.mul_mod_right, Nat.mul_add_mod, if_true, show (1 : ℕ) % 2 = 1 from rfl, one_ne_zero, if_false]
  obtain ⟨b1, b2, rfl, rfl, rfl, rfl, hs⟩ := hb
  refine ⟨⟨desc2_sorted hp.1, desc2_sorted hp.2.1⟩, ⟨?_, ?_⟩, .inr ⟨desc2_length _ _, desc2_length _ _⟩, hp.2.2, ?_, ?_⟩
  · intro p hp; rcases mem_desc2.1 hp with rfl | rfl; exact b1.1; exact b1.2
  · intro p hp; rcases mem_desc2.1 hp with rfl | rfl; exact b2.1; exact b2.2
  · show ((desc2 c0 c1).countP _) = (desc2 a0 a1).countP _
    rw [even_desc2, even_desc2, hs]
  · show irrepOf irr (desc2 a0 a1 ++ desc2 c0 c1) = 0
    rw [irrepOf_append, irrepOf_desc2, irrepOf_desc2, hz]

/-- a pair of spin orbitals, in the form the loops visit it -/
theorem pair_class {k c0 c1 : ℕ} (h : c1 < c0) (hk : c0 < 2 * k) : ∃ a b, a ≤ b ∧ b < k ∧
    (∀ f : ℕ → ℕ, f (c0 / 2) ^^^ f (c1 / 2) = f a ^^^ f b) ∧
    ((([c0, c1].countP fun p => p % 2 == 0) = 2 ∧ desc2 (2 * a) (2 * b) = [c0, c1]) ∨
     (([c0, c1].countP fun p => p % 2 == 0) = 0 ∧ desc2 (2 * a + 1) (2 * b + 1) = [c0, c1]) ∨
     (([c0, c1].countP fun p => p % 2 == 0) = 1 ∧ (desc2 (2 * a) (2 * b + 1) = [c0, c1] ∨ desc2 (2 * a + 1) (2 * b) = [c0, c1]))) := by
  have D : ∀ x y, (x = c0 ∧ y = c1) ∨ (x = c1 ∧ y = c0) → desc2 x y = [c0, c1] := by
    rintro x y (⟨rfl, rfl⟩ | ⟨rfl, rfl⟩) <;> unfold desc2
    · rw [if_pos h]
    · rw [if_neg (by omega)]
  have X : ∀ f : ℕ → ℕ, f (c0 / 2) ^^^ f (c1 / 2) = f (c1 / 2) ^^^ f (c0 / 2) := fun f => Nat.xor_comm _ _
  have hc : ([c0, c1].countP fun p => p % 2 == 0) = (if c0 % 2 = 0 then 1 else 0) + if c1 % 2 = 0 then 1 else 0 := by
    simp only [List.countP_cons, List.countP_nil, beq_iff_eq]; omega
  rw [hc]
  refine ⟨c1 / 2, c0 / 2, by omega, by omega, X, ?_⟩
  rcases Nat.mod_two_eq_zero_or_one c0 with h0 | h0 <;> rcases Nat.mod_two_eq_zero_or_one c1 with h1 | h1
  · left; exact ⟨by simp [h0, h1], D _ _ (.inr ⟨by omega, by omega⟩)⟩
  · right; right; exact ⟨by simp [h0, h1], .inr (D _ _ (.inr ⟨by omega, by omega⟩))⟩
  · right; right; exact ⟨by simp [h0, h1], .inl (D _ _ (.inr ⟨by omega, by omega⟩))⟩
  · right; left; exact ⟨by simp [h0, h1], D _ _ (.inr ⟨by omega, by omega⟩)⟩

theorem desc2_ne {x y c0 c1 : ℕ} (h : c1 < c0) (e : desc2 x y = [c0, c1]) : x ≠ y := by
  rintro rfl
  unfold desc2 at e
  simp at e
  omega

theorem gen_cand {k : ℕ} {irr : List ℕ} {x : Key} (h : GenExc k irr x) (h2 : Two x) : ∃ y ∈ candsOf irr (gsdQuads k k), Proper y ∧ keyOf y = x := by
  obtain ⟨c, a⟩ := x
  obtain ⟨l1, l2⟩ := h2
  match c, a, l1, l2 with
  | [c0, c1], [a0, a1], _, _ =>
    have dc : c1 < c0 := by have := h.desc.1; simpa using this
    have da : a1 < a0 := by have := h.desc.2; simpa using this
    obtain ⟨A, B, ab, bk, fx, hC⟩ := pair_class dc (h.bound.1 c0 (by simp))
    obtain ⟨I, J, ij, jk, fy, hA⟩ := pair_class da (h.bound.2 a0 (by simp))
    have hs : ([c0, c1].countP fun p => p % 2 == 0) = [a0, a1].countP fun p => p % 2 == 0 := h.spin
    have hz : irrepOf irr [2 * I, 2 * J, 2 * A, 2 * B] = 0 := by
      rw [irrep4, ← fx fun p => irr.getD p 0, ← fy fun p => irr.getD p 0]
      have := h.sym
      rw [irrepOf_append] at this
      unfold irrepOf at this
      simpa using this
    have fin : ∀ y ∈ gsdCases I J A B, keyOf y = ([c0, c1], [a0, a1]) → ∃ y ∈ candsOf irr (gsdQuads k k), Proper y ∧ keyOf y = ([c0, c1], [a0, a1]) := by
      intro y hy e
      refine ⟨y, ?_, ⟨?_, ?_, ?_⟩, e⟩
      · unfold candsOf
        rw [List.mem_flatMap]
        refine ⟨(I, J, A, B), mem_gsdQuads.2 ⟨⟨ij, jk⟩, ab, bk⟩, ?_⟩
        simp only [hz, if_true]
        exact hy
      · exact desc2_ne dc (congrArg Prod.fst e)
      · exact desc2_ne da (congrArg Prod.snd e)
      · rw [e]; exact h.ne
    have mk : ∀ p q r s : ℕ, (p, q, r, s) ∈ gsdCases I J A B → desc2 p q = [c0, c1] → desc2 r s = [a0, a1] →
        ∃ y ∈ candsOf irr (gsdQuads k k), Proper y ∧ keyOf y = ([c0, c1], [a0, a1]) := by
      intro p q r s hm e1 e2
      exact fin _ hm (by unfold keyOf; rw [e1, e2])
    rcases hC with ⟨n1, e1⟩ | ⟨n1, e1⟩ | ⟨n1, e1⟩ <;> rcases hA with ⟨n2, e2⟩ | ⟨n2, e2⟩ | ⟨n2, e2⟩ <;> first | omega | skip
    · exact mk _ _ _ _ (by simp [gsdCases]) e1 e2
    · exact mk _ _ _ _ (by simp [gsdCases]) e1 e2
    · rcases e1 with e1 | e1 <;> rcases e2 with e2 | e2 <;> exact mk _ _ _ _ (by simp [gsdCases]) e1 e2

theorem single_gen {k : ℕ} {irr : List ℕ} {x : ℕ × ℕ} (hx : x ∈ gsdPairs k) {e : Key} (he : e ∈ singleKeys irr x) : GenExc k irr e ∧ e.1.length = 1 := by
  have hx := mem_gsdPairs.1 hx
  unfold singleKeys at he
  split at he
  swap
  · simp at he
  rename_i hz
  have hz' : irr.getD x.1 0 ^^^ irr.getD x.2 0 = 0 := by have := hz.1; unfold irrepOf at this; simpa using this
  simp only [List.mem_cons, List.not_mem_nil, or_false] at he
  rcases he with rfl | rfl
  · refine ⟨⟨by simp, ⟨by simp; omega, by simp; omega⟩, .inl ⟨rfl, rfl⟩, by simp; exact Ne.symm hz.2, by simp, ?_⟩, rfl⟩
    unfold irrepOf; simpa using hz'
  · refine ⟨⟨by simp, ⟨by simp; omega, by simp; omega⟩, .inl ⟨rfl, rfl⟩, by simp; exact Ne.symm hz.2, ?_, ?_⟩, rfl⟩
    · simp [List.countP_cons]
    · unfold irrepOf
      simp only [List.singleton_append, List.map_cons, List.map_nil, List.foldr_cons, List.foldr_nil, Nat.xor_zero, show (2 * x.1 + 1) / 2 = x.1 by omega,
        show (2 * x.2 + 1) / 2 = x.2 by omega]
      exact hz'

theorem gen_single {k : ℕ} {irr : List ℕ} {e : Key} (h : GenExc k irr e) (h1 : e.1.length = 1 ∧ e.2.length = 1) :
    e ∈ (gsdPairs k).flatMap (singleKeys irr) ∨ e.swap ∈ (gsdPairs k).flatMap (singleKeys irr) := by
  have key : ∀ q p : ℕ, p < q → GenExc k irr ([q], [p]) → ([q], [p]) ∈ (gsdPairs k).flatMap (singleKeys irr) := by
    intro q p hpq h
    have hs : q % 2 = p % 2 := by
      have := h.spin
      simp only [List.countP_cons, List.countP_nil, beq_iff_eq] at this
      split at this <;> split at this <;> omega
    have hb := h.bound.1 q (by simp)
    have hz := h.sym
    unfold irrepOf at hz
    simp only [List.singleton_append, List.map_cons, List.map_nil, List.foldr_cons, List.foldr_nil, Nat.xor_zero] at hz
    rw [List.mem_flatMap]
    refine ⟨(p / 2, q / 2), mem_gsdPairs.2 ⟨by simp only; omega, by simp only; omega⟩, ?_⟩
    unfold singleKeys
    rw [if_pos ⟨by unfold irrepOf; simpa using hz, by simp only; omega⟩]
    simp only [List.mem_cons, List.not_mem_nil, or_false, Prod.mk.injEq, List.cons.injEq, and_true]
    omega
  obtain ⟨c, a⟩ := e
  match c, a, h1.1, h1.2 with
  | [q], [p], _, _ =>
    have hne : q ≠ p := by have := h.ne; simpa using this
    rcases Nat.lt_or_gt_of_ne hne with hl | hl
    · right; exact key p q hl h.swap
    · left; exact key q p hl h

theorem singles_nodup (k : ℕ) (irr : List ℕ) : (((gsdPairs k).flatMap (singleKeys irr)).map lead).Nodup := by
  rw [List.Nodup, List.pairwise_map]
  have base : ((gsdPairs k).flatMap (singleKeys irr)).Nodup := by
    rw [List.nodup_flatMap]
    constructor
    · intro x _
      unfold singleKeys
      split <;> simp
    · apply List.Pairwise.imp_of_mem _ (List.nodup_iff_pairwise_ne.1 (gsdPairs_nodup k))
      intro x y _ _ hne
      show List.Disjoint _ _
      intro e he he'
      unfold singleKeys at he he'
      split at he <;> split at he' <;> simp only [List.mem_cons, List.not_mem_nil, or_false] at he he'
      apply hne
      rcases he with rfl | rfl <;> simp only [Prod.mk.injEq, List.cons.injEq, and_true] at he' <;> exact Prod.ext (by omega) (by omega)
  apply List.Pairwise.imp_of_mem _ (List.nodup_iff_pairwise_ne.1 base)
  intro a b ha hb hne e
  obtain ⟨x, hx, ha'⟩ := List.mem_flatMap.1 ha
  obtain ⟨y, hy, hb'⟩ := List.mem_flatMap.1 hb
  rcases (lead_eq_iff (single_gen hx ha').1.ne).1 e with h | h
  · exact hne h.symm
  · have hx' := mem_gsdPairs.1 hx
    have hy' := mem_gsdPairs.1 hy
    unfold singleKeys at ha' hb'
    split at ha' <;> split at hb' <;> simp only [List.mem_cons, List.not_mem_nil, or_false] at ha' hb'
    rename_i z1 z2
    subst h
    rcases ha' with rfl | rfl <;> simp only [Prod.swap, Prod.mk.injEq, List.cons.injEq, and_true] at hb' <;> omega

/-- C63: the GSD pool, for every number of orbitals and irrep table: filling it never fails, and it contains, up to sign exactly
once, every generalised single and double excitation that conserves the spin projection and is totally symmetric, and nothing
else.  Each is stored with coefficient 1 as the two terms of `E - E†`. -/
theorem C63_contents (o : DescSort) (P : SQOpPool) (k : ℕ) (hn : P.nSpinorb = 2 * k) (hi : k ≤ P.orbIrreps.length) :
    ∃ keys : List (List ℕ × List ℕ), fillGSD o P = .ok { P with terms := P.terms ++ keys.map fun x => (1, excTerms x.1 x.2) } ∧
      (∀ x ∈ keys, GenExc k P.orbIrreps x) ∧ ∀ x, GenExc k P.orbIrreps x → keys.count x + keys.count (x.2, x.1) = 1 := by
  unfold fillGSD
  simp only [hn, show 2 * k / 2 = k by omega]
  rw [gsdSingles_fold o (gsdPairs k) P (fun x hx => by have := mem_gsdPairs.1 hx; omega), except_ok_bind]
  obtain ⟨s, es, hs⟩ := gsdDoubles_inv o { P with terms := P.terms ++ ((gsdPairs k).flatMap (singleKeys P.orbIrreps)).map fun k => (1, excTerms k.1 k.2) } (k := k) hi
  obtain ⟨keys, e1, -, -, h4, h5, h6⟩ := hs.ex
  simp only [] at e1 h4 h5
  rw [es, except_ok_bind, e1]
  have two : ∀ x ∈ keys, Two x ∧ GenExc k P.orbIrreps x := by
    intro x hx
    obtain ⟨y, hy, hp, he⟩ := h4 x hx
    have g := cand_gen hy hp
    rcases he with rfl | rfl
    · exact ⟨⟨desc2_length _ _, desc2_length _ _⟩, g⟩
    · exact ⟨⟨desc2_length _ _, desc2_length _ _⟩, g.swap⟩
  refine ⟨(gsdPairs k).flatMap (singleKeys P.orbIrreps) ++ keys, ?_, ?_, ?_⟩
  · simp [pure, Except.pure, hn]
  · intro x hx
    rcases List.mem_append.1 hx with hx | hx
    · obtain ⟨y, hy, hx⟩ := List.mem_flatMap.1 hx
      exact (single_gen hy hx).1
    · exact (two x hx).2
  · intro x hx
    have := count_lead hx.ne ((gsdPairs k).flatMap (singleKeys P.orbIrreps) ++ keys)
    rw [show (x.2, x.1) = x.swap from rfl, this, List.map_append]
    have nd : ((((gsdPairs k).flatMap (singleKeys P.orbIrreps)).map lead) ++ keys.map lead).Nodup := by
      rw [List.nodup_append]
      refine ⟨singles_nodup k _, h6, ?_⟩
      intro a ha b hb e
      obtain ⟨x1, hx1, rfl⟩ := List.mem_map.1 ha
      obtain ⟨x2, hx2, rfl⟩ := List.mem_map.1 hb
      obtain ⟨y, hy, hx1⟩ := List.mem_flatMap.1 hx1
      have g := single_gen hy hx1
      have t := (two x2 hx2).1
      have gl : x1.2.length = 1 := by rcases g.1.rank with h | h; exact h.2; have := g.2; omega
      rcases (lead_eq_iff g.1.ne).1 e with h | h
      · have := t.1; rw [h] at this; have := g.2; omega
      · have := t.1; rw [h] at this; simp only [Prod.swap] at this; omega
    apply List.count_eq_one_of_mem nd
    rw [List.mem_append]
    rcases hx.rank with h1 | h2
    · left
      rcases gen_single hx h1 with h | h
      · exact List.mem_map.2 ⟨x, h, rfl⟩
      · exact List.mem_map.2 ⟨x.swap, h, lead_swap hx.ne⟩
    · right
      obtain ⟨y, hy, hp, he⟩ := gen_cand hx h2
      have := h5 y hy hp
      rwa [he] at this

theorem sum_even (w : ℕ → ℂ) (a b : ℂ) (hw : ∀ p, w p = if p % 2 = 0 then a else b) (l : List ℕ) :
    (l.map w).sum = (l.countP fun p => p % 2 == 0) * a + ((l.length : ℂ) - (l.countP fun p => p % 2 == 0)) * b := by
  induction l with
  | nil => simp
  | cons p l ih =>
    rw [List.map_cons, List.sum_cons, ih, List.countP_cons, List.length_cons, hw]
    by_cases h : p % 2 = 0 <;> simp [h] <;> ring

/-- C63: every generalised excitation is anti-Hermitian and conserves the particle number and the spin projection -/
theorem C63_symmetries (k : ℕ) (irr : List ℕ) (x : List ℕ × List ℕ) (h : GenExc k irr x) :
    SQOperator.op (excTerms x.1 x.2) = fermiString x.1 x.2 - fermiString x.2 x.1 ∧ AntiHermitian (2 * k) (SQOperator.op (excTerms x.1 x.2)) ∧
    Commute (NumOp (2 * k)) (SQOperator.op (excTerms x.1 x.2)) ∧ Commute (SpinZ (2 * k)) (SQOperator.op (excTerms x.1 x.2)) := by
  have hl : x.1.length = x.2.length := by rcases h.rank with h | h <;> omega
  have comm : ∀ (w : ℕ → ℂ) (a b : ℂ), (∀ p, w p = if p % 2 = 0 then a else b) → Commute (chargeOp w (2 * k)) (SQOperator.op (excTerms x.1 x.2)) := by
    intro w a b hw
    have e : (x.1.map w).sum = (x.2.map w).sum := by rw [sum_even w a b hw, sum_even w a b hw, h.spin, hl]
    rw [excTerms_op]
    exact (charge_commute w h.bound.1 h.bound.2 e).sub_right (charge_commute w h.bound.2 h.bound.1 e.symm)
  refine ⟨excTerms_op _ _, ?_, comm _ 1 1 (by simp), comm _ _ _ (fun _ => rfl)⟩
  rw [excTerms_op]
  exact adj_exc h.bound.1 h.bound.2 (sdesc_nodup h.desc.1) (sdesc_nodup h.desc.2) hl

/-- `E - E†` stored for an excitation is minus what is stored for its adjoint -/
theorem C63_sign (c a : List ℕ) : SQOperator.op (excTerms a c) = -SQOperator.op (excTerms c a) := by
  rw [excTerms_op, excTerms_op]; apply Op.ext'; intro ψ I; simp

/-- generalised excitations exist: in two spatial orbitals of the same symmetry a single and two doubles, one of them with a
spectator orbital -/
theorem C63_example : GenExc 2 [0, 0] ([2], [0]) ∧ GenExc 2 [0, 0] ([3, 2], [1, 0]) ∧ GenExc 2 [0, 0] ([3, 0], [1, 0]) := by
  refine ⟨⟨by simp, by simp, .inl ⟨rfl, rfl⟩, by simp, rfl, rfl⟩, ⟨by simp, by simp, .inr ⟨rfl, rfl⟩, by simp, rfl, rfl⟩, ⟨by simp, by simp, .inr ⟨rfl, rfl⟩, by simp, rfl, rfl⟩⟩

/-- the name of the pool: anything that is not one of the eight pools raises -/
theorem C63_invalid_name (N : NextPerm) (o : DescSort) (fuel : ℕ) (P : SQOpPool) (name : String)
    (h : name ∉ ["GSD", "S", "SD", "SDT", "SDTQ", "SDTQP", "SDTQPH", "sa_SD"]) : fillPool N o fuel P name = .error .invalidArgument := by
  simp only [List.mem_cons, List.not_mem_nil, or_false, not_or] at h
  obtain ⟨h1, h2, h3, h4, h5, h6, h7, h8⟩ := h
  unfold fillPool maxNbody
  simp only [h1, h2, h3, h4, h5, h6, h7, h8, if_false]

end SQOpPool
end QF
