import Verif.Spec.SQOp
import Verif.Lemmas.Fermion
import Verif.Lemmas.PauliIndep
import Verif.Lemmas.Measure
import Mathlib.Data.Prod.Lex
import Mathlib.Order.Defs.LinearOrder
import Mathlib.Data.List.Lex

/-! canonical ordering and simplification of second-quantised operators -/
namespace QF
namespace SQOperator

/-! ### permutation_phase succeeds only on permutations -/

theorem set_set_perm {p : List ℕ} {i k x : ℕ} (h1 : p[i]? = some k) (h2 : k ≠ i) (h3 : p[k]? = some x) :
    ((p.set i x).set k k).Perm p := by
  have hi : i < p.length := by
    by_contra h; rw [List.getElem?_eq_none (by omega)] at h1; cases h1
  have hk : k < p.length := by
    by_contra h; rw [List.getElem?_eq_none (by omega)] at h3; cases h3
  rw [List.getElem?_eq_getElem hi] at h1
  rw [List.getElem?_eq_getElem hk] at h3
  have e1 : p[i] = k := by simpa using h1
  have e3 : p[k] = x := by simpa using h3
  have := List.set_set_perm (as := p) hi hk
  rw [e1, e3] at this
  exact this

theorem phaseWhile_inv : ∀ (m : ℕ) (p : List ℕ) (i cnt : ℕ) (p' : List ℕ) (c' : ℕ), (unfixed p).card < m →
    phaseWhile p i cnt = .ok (p', c') → p'.Perm p ∧ p'[i]? = some i ∧ ∀ j : ℕ, p[j]? = some j → p'[j]? = some j := by
  intro m
  induction m with
  | zero => intro p i cnt p' c' h; omega
  | succ m ih =>
    intro p i cnt p' c' hm h
    rw [phaseWhile] at h
    split at h
    · cases h
    · rename_i k h1
      by_cases h2 : k = i
      · rw [dif_pos h2] at h; cases h
        exact ⟨.refl _, by rw [h1, h2], fun j hj => hj⟩
      · rw [dif_neg h2] at h
        split at h
        · cases h
        · rename_i x h3
          by_cases h4 : x = k
          · rw [dif_pos h4] at h; cases h
          · rw [dif_neg h4] at h
            have hd := unfixed_decreases p i k x h1 h2 h3 h4
            obtain ⟨g1, g2, g3⟩ := ih _ i _ p' c' (by omega) h
            refine ⟨g1.trans (set_set_perm h1 h2 h3), g2, fun j hj => g3 j ?_⟩
            have hk : k < p.length := by
              by_contra h; rw [List.getElem?_eq_none (by omega)] at h3; cases h3
            by_cases jk : j = k
            · subst jk; rw [List.getElem?_set_self (by simpa using hk)]
            · rw [List.getElem?_set_ne (fun h => jk h.symm)]
              by_cases ji : j = i
              · subst ji; rw [h1] at hj; cases hj; exact absurd rfl h2
              · rw [List.getElem?_set_ne (fun h => ji h.symm)]; exact hj

theorem phase_ok_perm (p : List ℕ) (b : Bool) (h : permutationPhase p = .ok b) : p.Perm (List.range p.length) := by
  unfold permutationPhase at h
  have key : ∀ m p' c', (List.range m).foldlM (fun s i => phaseWhile s.1 i s.2) (p, 0) = .ok (p', c') →
      p'.Perm p ∧ ∀ j : ℕ, j < m → p'[j]? = some j := by
    intro m
    induction m with
    | zero => intro p' c' h; cases h; exact ⟨.refl _, fun j hj => by omega⟩
    | succ m ih =>
      intro p' c' h
      rw [List.range_succ, List.foldlM_append] at h
      rcases hq : (List.range m).foldlM (fun s i => phaseWhile s.1 i s.2) (p, 0) with e | ⟨p1, c1⟩
      · rw [hq] at h; cases h
      · rw [hq, except_ok_bind, List.foldlM_cons] at h
        rcases hw : phaseWhile p1 m c1 with e | ⟨p2, c2⟩
        · simp only [hw] at h; cases h
        · simp only [hw] at h
          cases h
          obtain ⟨g1, g2⟩ := ih p1 c1 hq
          obtain ⟨f1, f2, f3⟩ := phaseWhile_inv _ _ _ _ _ _ (Nat.lt_succ_self _) hw
          refine ⟨f1.trans g1, fun j hj => ?_⟩
          by_cases e : j = m
          · subst e; exact f2
          · exact f3 j (g2 j (by omega))
  rcases hq : (List.range p.length).foldlM (fun s i => phaseWhile s.1 i s.2) (p, 0) with e | ⟨p1, c1⟩
  · rw [hq] at h; cases h
  · obtain ⟨g1, g2⟩ := key _ _ _ hq
    have : p1 = List.range p.length := by
      apply List.ext_getElem?
      intro j
      by_cases hj : j < p.length
      · rw [g2 j hj]; simp [hj]
      · rw [List.getElem?_eq_none (by rw [g1.length_eq]; omega), List.getElem?_eq_none (by simp; omega)]
    rw [← this]; exact g1.symm

/-! ### canonical order -/

theorem map_getD_perm {temp ops : List ℕ} (h : temp.Perm (List.range ops.length)) : (temp.map fun i => ops.getD i 0).Perm ops := by
  have h1 := h.map (fun i => ops.getD i 0)
  have h2 : (List.range ops.length).map (fun i => ops.getD i 0) = ops := by
    apply List.ext_getElem
    · simp
    · intro i h1 h2; simp [h2]
  rwa [h2] at h1

theorem map_getD_permList {ops : List ℕ} (σ : Equiv.Perm (Fin ops.length)) (f : ℕ → Op) :
    ((permList σ).map fun i => f (ops.getD i 0)) = List.ofFn fun j => f (ops[(σ j : ℕ)]'(σ j).2) := by
  unfold permList
  rw [List.map_ofFn]
  congr 1
  funext j
  simp

theorem canonicalizeHelper_ok (o : DescSort) (ops : List ℕ) : ∃ ops' s, canonicalizeHelper o ops = .ok (ops', s) ∧
    ops'.Perm ops ∧ ops'.Pairwise (fun p q => q ≤ p) ∧ (s = 1 ∨ s = -1) ∧
    (∀ b, s • (ops'.map (ladder b)).prod = (ops.map (ladder b)).prod) ∧
    (∀ b, (ops'.map (qladder b)).prod = (ops.map (qladder b)).prod) := by
  obtain ⟨σ, hσ⟩ := exists_permList _ _ (o.isPerm ops)
  refine ⟨(o.perm ops).map fun i => ops.getD i 0, if Equiv.Perm.sign σ = -1 then -1 else 1, ?_, map_getD_perm (o.isPerm ops), ?_, ?_, ?_, ?_⟩
  · unfold canonicalizeHelper
    have hp : permutationPhase (o.perm ops) = .ok (decide (Equiv.Perm.sign σ = -1)) := by rw [hσ]; exact permutationPhase_perm σ
    simp only [hp, except_ok_bind, pure, Except.pure]
    simp
  · rw [List.pairwise_map]; exact o.sorted ops
  · split_ifs <;> simp
  · intro b
    have hof : ops.map (ladder b) = List.ofFn fun j : Fin ops.length => ladder b ops[(j : ℕ)] := by
      apply List.ext_getElem <;> simp
    rw [List.map_map, hσ, hof]
    have := map_getD_permList σ (ladder b)
    simp only [Function.comp_def]
    rw [this, prod_ofFn_perm _ (fun j : Fin ops.length => ladder b ops[(j : ℕ)]) σ (fun _ _ => ladder_same_anticomm b _ _)]
    rcases Int.units_eq_one_or (Equiv.Perm.sign σ) with h | h
    · rw [h, if_neg (by decide)]; simp
    · rw [h, if_pos rfl, Op.neg_one_smul]; simp; apply Op.ext'; intro ψ I; simp [LinearMap.neg_apply, Module.End.mul_apply]
  · intro b
    have hof : ops.map (qladder b) = List.ofFn fun j : Fin ops.length => qladder b ops[(j : ℕ)] := by
      apply List.ext_getElem <;> simp
    rw [List.map_map, hσ, hof]
    have := map_getD_permList σ (qladder b)
    simp only [Function.comp_def]
    rw [this, prod_ofFn_perm_comm _ (fun j : Fin ops.length => qladder b ops[(j : ℕ)]) σ (fun _ _ => qladder_comm b b _ _ (.inr rfl))]


/-- what `canonical_order` does to one term -/
structure CanonStep (t t' : SQTerm) : Prop where
  cre : t'.2.1.Perm t.2.1
  ann : t'.2.2.Perm t.2.2
  desc : SQTerm.Descending t'
  coef : t'.1 = t.1 ∨ t'.1 = -t.1
  op : t'.1 • fermiString t'.2.1 t'.2.2 = t.1 • fermiString t.2.1 t.2.2
  qop : qubitString t'.2.1 t'.2.2 = qubitString t.2.1 t.2.2

theorem canonicalOrderSingle_ok (o : DescSort) (t : SQTerm) : ∃ t', canonicalOrderSingle o t = .ok t' ∧ CanonStep t t' := by
  obtain ⟨c', s1, e1, p1, d1, h1, o1, q1⟩ := canonicalizeHelper_ok o t.2.1
  obtain ⟨a', s2, e2, p2, d2, h2, o2, q2⟩ := canonicalizeHelper_ok o t.2.2
  refine ⟨(t.1 * s1 * s2, c', a'), ?_, p1, p2, ⟨d1, d2⟩, ?_, ?_, ?_⟩
  · unfold canonicalOrderSingle; rw [e1, e2]; rfl
  · rcases h1 with rfl | rfl <;> rcases h2 with rfl | rfl <;> simp
  · unfold fermiString aDag aAnn
    show (t.1 * s1 * s2) • ((c'.map (ladder true)).prod * (a'.map (ladder false)).prod) = _
    rw [← o1 true, ← o2 false, smul_mul_smul_comm, smul_smul, mul_assoc]
  · unfold qubitString; rw [q1, q2]

theorem canonicalOrder_ok (o : DescSort) (A : SQOperator) : ∃ A', canonicalOrder o A = .ok A' ∧ List.Forall₂ CanonStep A A' := by
  induction A with
  | nil => exact ⟨[], rfl, .nil⟩
  | cons t A ih =>
    obtain ⟨A', e1, h1⟩ := ih
    obtain ⟨t', e2, h2⟩ := canonicalOrderSingle_ok o t
    refine ⟨t' :: A', ?_, .cons h2 h1⟩
    unfold canonicalOrder at e1 ⊢
    rw [List.mapM_cons, e2, e1]; rfl

theorem canonStep_sum {A A' : SQOperator} (h : List.Forall₂ CanonStep A A') : A'.op = A.op := by
  unfold SQOperator.op
  induction h with
  | nil => rfl
  | cons h1 _ ih => simp only [List.map_cons, List.sum_cons, ih, h1.op]

/-! ### the order of the keys -/

abbrev Key := List ℕ × List ℕ

theorem vlt_iff : ∀ a b : List ℕ, vlt a b = true ↔ a < b := by
  intro a
  induction a with
  | nil => intro b; cases b <;> simp [vlt]
  | cons x a ih =>
    intro b
    cases b with
    | nil => simp [vlt]
    | cons y b =>
      unfold vlt
      rw [List.cons_lt_cons_iff]
      by_cases h1 : x < y
      · simp [h1]
      · by_cases h2 : y < x
        · have : x ≠ y := by omega
          simp [h1, h2, this]
        · have : x = y := by omega
          simp [this, ih b]

theorem klt_iff (a b : Key) : klt a b = true ↔ toLex a < toLex b := by
  unfold klt
  rw [Prod.Lex.toLex_lt_toLex]
  by_cases h1 : a.1 < b.1
  · rw [if_pos ((vlt_iff _ _).2 h1)]; simp [h1]
  · rw [if_neg (fun h => h1 ((vlt_iff _ _).1 h))]
    by_cases h2 : b.1 < a.1
    · rw [if_pos ((vlt_iff _ _).2 h2)]
      have : a.1 ≠ b.1 := ne_of_gt h2
      simp [h1, this]
    · rw [if_neg (fun h => h2 ((vlt_iff _ _).1 h)), vlt_iff]
      have : a.1 = b.1 := le_antisymm (not_lt.1 h2) (not_lt.1 h1)
      simp [this]

theorem klt_eq {a b : Key} (h1 : ¬ klt a b = true) (h2 : ¬ klt b a = true) : a = b := by
  rw [klt_iff] at h1 h2
  exact toLex.injective (le_antisymm (not_lt.1 h2) (not_lt.1 h1))

theorem klt_trans {a b c : Key} (h1 : klt a b = true) (h2 : klt b c = true) : klt a c = true := by
  rw [klt_iff] at *; exact lt_trans h1 h2

theorem klt_irrefl (a : Key) : ¬ klt a a = true := by rw [klt_iff]; exact lt_irrefl _

/-! ### the map -/

theorem mapAdd_keys (k : Key) (v : ℂ) : ∀ (m : List (Key × ℂ)) (s : Key),
    s ∈ (mapAdd k v m).map Prod.fst ↔ s = k ∨ s ∈ m.map Prod.fst := by
  intro m
  induction m with
  | nil => intro s; simp [mapAdd]
  | cons x m ih =>
    intro s
    obtain ⟨k', v'⟩ := x
    unfold mapAdd
    split_ifs with h1 h2
    · simp
    · simp only [List.map_cons, List.mem_cons, ih]; tauto
    · have := klt_eq h1 h2
      subst this
      simp

theorem mapAdd_sorted (k : Key) (v : ℂ) : ∀ (m : List (Key × ℂ)), (m.Pairwise fun a b => klt a.1 b.1 = true) →
    (mapAdd k v m).Pairwise fun a b => klt a.1 b.1 = true := by
  intro m
  induction m with
  | nil => intro _; simp [mapAdd]
  | cons x m ih =>
    intro h
    obtain ⟨k', v'⟩ := x
    obtain ⟨h1, h2⟩ := List.pairwise_cons.1 h
    unfold mapAdd
    split_ifs with g1 g2
    · refine List.pairwise_cons.2 ⟨?_, h⟩
      intro b hb
      rcases List.mem_cons.1 hb with rfl | hb
      · exact g1
      · exact klt_trans g1 (h1 b hb)
    · refine List.pairwise_cons.2 ⟨?_, ih h2⟩
      intro b hb
      have : b.1 ∈ (mapAdd k v m).map Prod.fst := List.mem_map_of_mem hb
      rw [mapAdd_keys] at this
      rcases this with e | hm
      · rw [e]; exact g2
      · obtain ⟨c, hc, e⟩ := List.mem_map.1 hm
        rw [← e]; exact h1 c hc
    · exact List.pairwise_cons.2 ⟨h1, h2⟩

/-- sum of `f key` weighted by the entries -/
theorem mapAdd_sum {M : Type*} [AddCommGroup M] [Module ℂ M] (f : Key → M) (k : Key) (v : ℂ) : ∀ (m : List (Key × ℂ)),
    ((mapAdd k v m).map fun e => e.2 • f e.1).sum = v • f k + (m.map fun e => e.2 • f e.1).sum := by
  intro m
  induction m with
  | nil => simp [mapAdd]
  | cons x m ih =>
    obtain ⟨k', v'⟩ := x
    unfold mapAdd
    split_ifs with g1 g2
    · simp
    · simp only [List.map_cons, List.sum_cons, ih]; abel
    · have := klt_eq g1 g2
      subst this
      simp only [List.map_cons, List.sum_cons, add_smul]; abel

noncomputable def buildMap (A : SQOperator) : List (Key × ℂ) := A.foldl (fun m t => mapAdd t.2 t.1 m) []

theorem buildMap_facts (A : SQOperator) : ((buildMap A).Pairwise fun a b => klt a.1 b.1 = true) ∧
    (∀ s, s ∈ (buildMap A).map Prod.fst ↔ s ∈ A.map Prod.snd) ∧
    ∀ {M : Type} [AddCommGroup M] [Module ℂ M] (f : Key → M),
      ((buildMap A).map fun e => e.2 • f e.1).sum = (A.map fun t => t.1 • f t.2).sum := by
  unfold buildMap
  have key : ∀ (A : SQOperator) (m : List (Key × ℂ)), (m.Pairwise fun a b => klt a.1 b.1 = true) →
      ((A.foldl (fun m t => mapAdd t.2 t.1 m) m).Pairwise fun a b => klt a.1 b.1 = true) ∧
      (∀ s, s ∈ (A.foldl (fun m t => mapAdd t.2 t.1 m) m).map Prod.fst ↔ s ∈ A.map Prod.snd ∨ s ∈ m.map Prod.fst) ∧
      ∀ {M : Type} [AddCommGroup M] [Module ℂ M] (f : Key → M),
        ((A.foldl (fun m t => mapAdd t.2 t.1 m) m).map fun e => e.2 • f e.1).sum =
          (A.map fun t => t.1 • f t.2).sum + (m.map fun e => e.2 • f e.1).sum := by
    intro A
    induction A with
    | nil => intro m hm; exact ⟨hm, by simp, by intros; simp⟩
    | cons t A ih =>
      intro m hm
      obtain ⟨h1, h2, h3⟩ := ih _ (mapAdd_sorted t.2 t.1 m hm)
      refine ⟨h1, ?_, ?_⟩
      · intro s
        rw [List.foldl_cons, h2, mapAdd_keys, List.map_cons, List.mem_cons]; tauto
      · intro M _ _ f
        rw [List.foldl_cons, h3, mapAdd_sum]
        simp only [List.map_cons, List.sum_cons]; abel
  obtain ⟨h1, h2, h3⟩ := key A [] (by simp)
  exact ⟨h1, by simpa using h2, by intro M _ _ f; simpa using h3 f⟩

end SQOperator
end QF
