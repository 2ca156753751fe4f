import Verif.Lemmas.PauliIndep
import Verif.Lemmas.Kernel
import Verif.Spec.OperatorOp
import Mathlib.Data.List.Lex
import Mathlib.Data.Prod.Lex
import Mathlib.Data.String.Basic

namespace QF

/-! ### the order on Pauli circuits is lexicographic in (label, target) -/

def Gate.key (g : Gate) : String ×ₗ ℕ := toLex (g.label, g.target)

def Circuit.keys (c : Circuit) : List (String ×ₗ ℕ) := c.map Gate.key

theorem Gate.parameter_none {g : Gate} (h : PauliGate g) : g.parameter = none := by
  unfold Gate.parameter; rw [h.param]; rfl

theorem Gate.lt_iff {a b : Gate} (ha : PauliGate a) (hb : PauliGate b) : a.lt b = true ↔ a.key < b.key := by
  unfold Gate.lt Gate.key
  rw [Prod.Lex.toLex_lt_toLex]
  simp only [Gate.parameter_none ha, Gate.parameter_none hb, ha.control, hb.control]
  by_cases h1 : a.label = b.label
  · by_cases h2 : a.target = b.target
    · simp [h1, h2]
    · simp [h1, h2]
  · simp [h1]

theorem Gate.key_inj {a b : Gate} (ha : PauliGate a) (hb : PauliGate b) (h : a.key = b.key) : a = b := by
  have h' : (a.label, a.target) = (b.label, b.target) := h
  have h1 : a.label = b.label := congrArg Prod.fst h'
  have h2 : a.target = b.target := congrArg Prod.snd h'
  have := ha.make
  rw [h1, h2, hb.make] at this
  cases this; rfl

theorem Circuit.lt_iff : ∀ {a b : Circuit}, (∀ g ∈ a, PauliGate g) → (∀ g ∈ b, PauliGate g) →
    (Circuit.lt a b = true ↔ a.keys < b.keys) := by
  intro a
  induction a with
  | nil =>
    intro b _ _
    cases b with
    | nil => simp [Circuit.lt, Circuit.keys]
    | cons y b => simp [Circuit.lt, Circuit.keys]
  | cons x a ih =>
    intro b ha hb
    cases b with
    | nil => simp [Circuit.lt, Circuit.keys]
    | cons y b =>
      have px := ha x (by simp)
      have py := hb y (by simp)
      have hi := ih (b := b) (fun g hg => ha g (by simp [hg])) (fun g hg => hb g (by simp [hg]))
      unfold Circuit.lt
      show _ ↔ x.key :: Circuit.keys a < y.key :: Circuit.keys b
      rw [List.cons_lt_cons_iff]
      by_cases h1 : x.key < y.key
      · rw [if_pos ((Gate.lt_iff px py).2 h1)]; simp [h1]
      · rw [if_neg (fun h => h1 ((Gate.lt_iff px py).1 h))]
        by_cases h2 : y.key < x.key
        · rw [if_pos ((Gate.lt_iff py px).2 h2)]
          simp [h1, h2.ne']
        · rw [if_neg (fun h => h2 ((Gate.lt_iff py px).1 h)), hi]
          have : x.key = y.key := le_antisymm (not_lt.1 h2) (not_lt.1 h1)
          simp [this]

theorem Circuit.keys_inj : ∀ {a b : Circuit}, (∀ g ∈ a, PauliGate g) → (∀ g ∈ b, PauliGate g) → a.keys = b.keys → a = b := by
  intro a
  induction a with
  | nil => intro b _ _ h; cases b with
    | nil => rfl
    | cons y b => simp [Circuit.keys] at h
  | cons x a ih =>
    intro b ha hb h
    cases b with
    | nil => simp [Circuit.keys] at h
    | cons y b =>
      simp only [Circuit.keys, List.map_cons, List.cons.injEq] at h
      rw [Gate.key_inj (ha x (by simp)) (hb y (by simp)) h.1,
        ih (fun g hg => ha g (by simp [hg])) (fun g hg => hb g (by simp [hg])) h.2]

/-! ### the map -/

open QubitOperator

def PauliCircuit (c : Circuit) : Prop := ∀ g ∈ c, PauliGate g

theorem Circuit.Canonical.pauli {c : Circuit} (h : c.Canonical) : PauliCircuit c := (canonical_iff.1 h).1

/-- entries of a map: Pauli keys in strictly increasing order -/
structure MapOk (m : List (Circuit × ℂ)) : Prop where
  pauli : ∀ e ∈ m, PauliCircuit e.1
  sorted : m.Pairwise (fun a b => a.1.keys < b.1.keys)

theorem mapAdd_keys (k : Circuit) (v : ℂ) (hk : PauliCircuit k) : ∀ (m : List (Circuit × ℂ)), (∀ e ∈ m, PauliCircuit e.1) →
    ∀ s, (s ∈ (mapAdd k v m).map Prod.fst ↔ s = k ∨ s ∈ m.map Prod.fst) := by
  intro m
  induction m with
  | nil => intro _ s; simp [mapAdd]
  | cons e m ih =>
    obtain ⟨k', v'⟩ := e
    intro hm s
    have hk' : PauliCircuit k' := hm (k', v') (by simp)
    have hi := ih (fun e he => hm e (by simp [he])) s
    unfold mapAdd
    by_cases h1 : k.lt k'
    · rw [if_pos h1]; simp
    · rw [if_neg h1]
      by_cases h2 : k'.lt k
      · rw [if_pos h2, List.map_cons, List.mem_cons, hi]
        simp only [List.map_cons, List.mem_cons]; tauto
      · rw [if_neg h2]
        have : k = k' := by
          apply Circuit.keys_inj hk hk'
          rw [Circuit.lt_iff hk hk', not_lt] at h1
          rw [Circuit.lt_iff hk' hk, not_lt] at h2
          exact le_antisymm h2 h1
        subst this
        simp

theorem mapAdd_ok {k : Circuit} {v : ℂ} (hk : PauliCircuit k) : ∀ {m : List (Circuit × ℂ)}, MapOk m → MapOk (mapAdd k v m) := by
  intro m hm
  have hp : ∀ e ∈ mapAdd k v m, PauliCircuit e.1 := by
    intro e he
    have : e.1 ∈ (mapAdd k v m).map Prod.fst := List.mem_map_of_mem he
    rw [mapAdd_keys k v hk m hm.pauli] at this
    rcases this with h | h
    · rw [h]; exact hk
    · obtain ⟨x, hx, e1⟩ := List.mem_map.1 h
      rw [← e1]; exact hm.pauli x hx
  refine ⟨hp, ?_⟩
  clear hp
  induction m with
  | nil => simp [mapAdd]
  | cons e m ih =>
    obtain ⟨k', v'⟩ := e
    have hk' : PauliCircuit k' := hm.pauli (k', v') (by simp)
    have hs := List.pairwise_cons.1 hm.sorted
    have hm' : MapOk m := ⟨fun e he => hm.pauli e (by simp [he]), hs.2⟩
    unfold mapAdd
    by_cases h1 : k.lt k'
    · rw [if_pos h1]
      rw [Circuit.lt_iff hk hk'] at h1
      refine List.pairwise_cons.2 ⟨?_, hm.sorted⟩
      intro x hx
      rcases List.mem_cons.1 hx with rfl | hx
      · exact h1
      · exact lt_trans h1 (hs.1 x hx)
    · rw [if_neg h1]
      by_cases h2 : k'.lt k
      · rw [if_pos h2]
        rw [Circuit.lt_iff hk' hk] at h2
        refine List.pairwise_cons.2 ⟨?_, ih hm'⟩
        intro x hx
        have : x.1 ∈ (mapAdd k v m).map Prod.fst := List.mem_map_of_mem hx
        rw [mapAdd_keys k v hk m hm'.pauli] at this
        rcases this with h | h
        · rw [h]; exact h2
        · obtain ⟨y, hy, e1⟩ := List.mem_map.1 h
          rw [← e1]; exact hs.1 y hy
      · rw [if_neg h2]
        exact List.pairwise_cons.2 ⟨hs.1, hs.2⟩

theorem mapAdd_sum {M : Type*} [AddCommGroup M] [Module ℂ M] (f : Circuit → M) {k : Circuit} {v : ℂ} (hk : PauliCircuit k) :
    ∀ {m : List (Circuit × ℂ)}, (∀ e ∈ m, PauliCircuit e.1) →
    ((mapAdd k v m).map fun e => e.2 • f e.1).sum = (m.map fun e => e.2 • f e.1).sum + v • f k := by
  intro m
  induction m with
  | nil => intro _; simp [mapAdd]
  | cons e m ih =>
    obtain ⟨k', v'⟩ := e
    intro hm
    have hk' : PauliCircuit k' := hm (k', v') (by simp)
    unfold mapAdd
    by_cases h1 : k.lt k'
    · rw [if_pos h1]; simp only [List.map_cons, List.sum_cons]; abel
    · rw [if_neg h1]
      by_cases h2 : k'.lt k
      · rw [if_pos h2]; simp only [List.map_cons, List.sum_cons]
        rw [ih (fun e he => hm e (by simp [he]))]; abel
      · rw [if_neg h2]
        have : k = k' := by
          apply Circuit.keys_inj hk hk'
          rw [Circuit.lt_iff hk hk', not_lt] at h1
          rw [Circuit.lt_iff hk' hk, not_lt] at h2
          exact le_antisymm h2 h1
        subst this
        simp only [List.map_cons, List.sum_cons, add_smul]; abel

theorem buildMap_aux {M : Type*} [AddCommGroup M] [Module ℂ M] (f : Circuit → M) : ∀ (A : QubitOperator) (m : List (Circuit × ℂ)),
    (∀ t ∈ A, PauliCircuit t.2) → MapOk m →
    MapOk (A.foldl (fun m t => mapAdd t.2 t.1 m) m) ∧
    (∀ s, s ∈ (A.foldl (fun m t => mapAdd t.2 t.1 m) m).map Prod.fst ↔ s ∈ m.map Prod.fst ∨ s ∈ A.map Prod.snd) ∧
    ((A.foldl (fun m t => mapAdd t.2 t.1 m) m).map fun e => e.2 • f e.1).sum =
      (m.map fun e => e.2 • f e.1).sum + (A.map fun t => t.1 • f t.2).sum := by
  intro A
  induction A with
  | nil => intro m _ hm; simp [hm]
  | cons t A ih =>
    intro m hA hm
    have ht := hA t (by simp)
    obtain ⟨h1, h2, h3⟩ := ih (mapAdd t.2 t.1 m) (fun t ht => hA t (by simp [ht])) (mapAdd_ok ht hm)
    simp only [List.foldl_cons]
    refine ⟨h1, ?_, ?_⟩
    · intro s
      rw [h2 s, mapAdd_keys _ _ ht m hm.pauli]
      simp only [List.map_cons, List.mem_cons]; tauto
    · rw [h3, mapAdd_sum f ht hm.pauli]
      simp only [List.map_cons, List.sum_cons]; abel

theorem buildMap_ok {A : QubitOperator} (hA : ∀ t ∈ A, PauliCircuit t.2) : MapOk (buildMap A) :=
  (buildMap_aux (M := ℂ) (fun _ => 0) A [] hA ⟨by simp, by simp⟩).1

theorem buildMap_keys {A : QubitOperator} (hA : ∀ t ∈ A, PauliCircuit t.2) (s : Circuit) :
    s ∈ (buildMap A).map Prod.fst ↔ s ∈ A.map Prod.snd := by
  have := (buildMap_aux (M := ℂ) (fun _ => 0) A [] hA ⟨by simp, by simp⟩).2.1 s
  simpa [buildMap] using this

theorem buildMap_sum {M : Type*} [AddCommGroup M] [Module ℂ M] (f : Circuit → M) {A : QubitOperator} (hA : ∀ t ∈ A, PauliCircuit t.2) :
    ((buildMap A).map fun e => e.2 • f e.1).sum = (A.map fun t => t.1 • f t.2).sum := by
  have := (buildMap_aux f A [] hA ⟨by simp, by simp⟩).2.2
  simpa [buildMap] using this

/-! ### canonical_order -/

theorem canonicalOrder_ok : ∀ {A : QubitOperator}, (∀ t ∈ A, PauliCircuit t.2) →
    ∃ A', A.canonicalOrder = .ok A' ∧
      List.Forall₂ (fun t t' => ∃ k, IsUnit4 k ∧ t.2.canonicalizePauli = .ok (k, t'.2) ∧ t'.1 = t.1 * k ∧ t'.2.Canonical ∧
        k • t'.2.opLR = t.2.opLR ∧ (∀ g ∈ t'.2, ∃ h ∈ t.2, h.target = g.target)) A A' := by
  intro A
  induction A with
  | nil => intro _; exact ⟨[], rfl, .nil⟩
  | cons t A ih =>
    intro hA
    obtain ⟨A', e1, h1⟩ := ih (fun t ht => hA t (by simp [ht]))
    obtain ⟨k, c', ec, hcan, hk, htg, ho⟩ := canonicalize_ok (hA t (by simp))
    refine ⟨(t.1 * k, c') :: A', ?_, .cons ⟨k, hk, ec, rfl, hcan, ho, htg⟩ h1⟩
    unfold canonicalOrder at e1 ⊢
    rw [List.mapM_cons, ec, e1]; rfl

theorem forall2_sum {R : (ℂ × Circuit) → (ℂ × Circuit) → Prop} {A B : QubitOperator} (h : List.Forall₂ R A B)
    (hR : ∀ t t', R t t' → t'.1 • t'.2.opLR = t.1 • t.2.opLR) : B.opLR = A.opLR := by
  induction h with
  | nil => rfl
  | cons h1 _ ih =>
    unfold opLR at ih ⊢
    simp only [List.map_cons, List.sum_cons, ih, hR _ _ h1]

theorem canonicalOrder_opLR {A A' : QubitOperator} (hA : ∀ t ∈ A, PauliCircuit t.2) (h : A.canonicalOrder = .ok A') :
    A'.opLR = A.opLR ∧ (∀ t ∈ A', t.2.Canonical) := by
  obtain ⟨B, e1, h1⟩ := canonicalOrder_ok hA
  rw [e1] at h; cases h
  refine ⟨forall2_sum h1 ?_, ?_⟩
  · rintro t t' ⟨k, _, _, e, _, ho, _⟩
    rw [e, mul_smul, ho]
  · intro t ht
    obtain ⟨i, hi, e⟩ := List.getElem_of_mem ht
    have := List.Forall₂.get h1 (by rw [h1.length_eq]; exact hi) hi
    obtain ⟨k, _, _, _, hcan, _⟩ := this
    simp only [List.get_eq_getElem, e] at hcan
    exact hcan

theorem isPauli_circuits {A : QubitOperator} (hA : A.IsPauli) : ∀ t ∈ A, PauliCircuit t.2 :=
  fun t ht g hg => pauliGate_of_api (hA t ht g hg).1 (hA t ht g hg).2

theorem canonical_api {c : Circuit} (hc : c.Canonical) : ∀ g ∈ c, ApiGate g ∧ (g.label = "X" ∨ g.label = "Y" ∨ g.label = "Z") :=
  fun g hg => ⟨.make (hc.gates g hg).2, (hc.gates g hg).1⟩

/-! ### simplify -/

theorem Normal.keys {R : QubitOperator} (h : R.Normal) : R.Pairwise (fun a b => a.2.keys < b.2.keys) := by
  refine List.Pairwise.imp_of_mem ?_ h.sorted
  intro a b ha hb hl
  exact (Circuit.lt_iff (h.canonical a ha).pauli (h.canonical b hb).pauli).1 hl

theorem Normal.nodup {R : QubitOperator} (h : R.Normal) : (R.map Prod.snd).Nodup := by
  rw [List.Nodup, List.pairwise_map]
  refine (Normal.keys h).imp ?_
  intro a b hl e
  rw [e] at hl
  exact lt_irrefl _ hl

theorem opLR_perm {A B : QubitOperator} (h : A.Perm B) : A.opLR = B.opLR := (h.map _).sum_eq

theorem opLR_qappend (A B : QubitOperator) : QubitOperator.opLR (A ++ B) = QubitOperator.opLR A + QubitOperator.opLR B := by
  unfold opLR; rw [List.map_append, List.sum_append]

/-- the full (untruncated) combination -/
theorem simplify_full {A : QubitOperator} (hA : ∀ t ∈ A, PauliCircuit t.2) :
    ∃ F, A.simplify false = .ok F ∧ F.Normal ∧ F.opLR = A.opLR ∧
      (∃ A', A.canonicalOrder = .ok A' ∧ ∀ s, s ∈ F.map Prod.snd ↔ s ∈ A'.map Prod.snd) ∧
      A.simplify true = .ok (F.filter fun t => decide (‖t.1‖ > 1e-12)) := by
  obtain ⟨A', e1, _⟩ := canonicalOrder_ok hA
  obtain ⟨ho, hcan⟩ := canonicalOrder_opLR hA e1
  have hp : ∀ t ∈ A', PauliCircuit t.2 := fun t ht => (hcan t ht).pauli
  have hmk := buildMap_ok hp
  have hck : ∀ e ∈ buildMap A', e.1.Canonical := by
    intro e he
    have : e.1 ∈ (buildMap A').map Prod.fst := List.mem_map_of_mem he
    rw [buildMap_keys hp] at this
    obtain ⟨t, ht, e2⟩ := List.mem_map.1 this
    rw [← e2]; exact hcan t ht
  refine ⟨(buildMap A').map fun e => (e.2, e.1), ?_, ⟨?_, ?_⟩, ?_, ⟨A', e1, ?_⟩, ?_⟩
  · unfold simplify; rw [e1]; simp
  · intro t ht
    obtain ⟨e, he, e2⟩ := List.mem_map.1 ht
    rw [← e2]; exact hck e he
  · rw [List.pairwise_map]
    refine List.Pairwise.imp_of_mem ?_ hmk.sorted
    intro a b ha hb hl
    exact (Circuit.lt_iff (hmk.pauli a ha) (hmk.pauli b hb)).2 hl
  · rw [← ho]
    unfold opLR
    rw [← buildMap_sum (fun c => c.opLR) hp, List.map_map]; rfl
  · intro s
    rw [← buildMap_keys hp, List.map_map]; rfl
  · unfold simplify; rw [e1]
    simp only [except_ok_bind, if_pos, pure, Except.pure]
    rw [List.filter_map]; rfl

theorem filter_split (F : QubitOperator) (p : ℂ × Circuit → Bool) :
    F.opLR = QubitOperator.opLR (F.filter p) + QubitOperator.opLR (F.filter fun t => !p t) := by
  induction F with
  | nil => simp [opLR]
  | cons t F ih =>
    have hc : ∀ (t : ℂ × Circuit) (G : QubitOperator), QubitOperator.opLR (t :: G) = t.1 • t.2.opLR + QubitOperator.opLR G := by
      intro t G; simp [opLR]
    by_cases h : p t
    · simp only [List.filter_cons, h, if_true, hc, ih]; simp; abel
    · simp only [List.filter_cons, h, hc, ih]; simp [hc]; abel

theorem Normal.filter {F : QubitOperator} (h : F.Normal) (p : ℂ × Circuit → Bool) : QubitOperator.Normal (F.filter p) :=
  ⟨fun t ht => h.canonical t (List.mem_filter.1 ht).1, h.sorted.filter p⟩

/-- coefficient of a string in a normal operator -/
noncomputable def coefN (F : QubitOperator) (s : Circuit) : ℂ := by
  classical exact (F.map fun t => if t.2 = s then t.1 else 0).sum

theorem coefN_mem {F : QubitOperator} (h : (F.map Prod.snd).Nodup) {t : ℂ × Circuit} (ht : t ∈ F) : coefN F t.2 = t.1 := by
  classical
  unfold coefN
  induction F with
  | nil => simp at ht
  | cons x F ih =>
    simp only [List.map_cons, List.nodup_cons] at h
    rw [List.map_cons, List.sum_cons]
    rcases List.mem_cons.1 ht with rfl | ht
    · rw [if_pos rfl]
      have : (F.map fun x => if x.2 = t.2 then x.1 else 0).sum = 0 := by
        apply List.sum_eq_zero
        intro z hz
        obtain ⟨y, hy, e⟩ := List.mem_map.1 hz
        rw [← e, if_neg]
        intro e2
        exact h.1 (e2 ▸ List.mem_map_of_mem hy)
      rw [this, add_zero]
    · rw [if_neg, zero_add]
      · exact ih h.2 ht
      · intro e
        exact h.1 (e ▸ List.mem_map_of_mem ht)

theorem coefN_not_mem {F : QubitOperator} {s : Circuit} (h : s ∉ F.map Prod.snd) : coefN F s = 0 := by
  classical
  unfold coefN
  apply List.sum_eq_zero
  intro z hz
  obtain ⟨y, hy, e⟩ := List.mem_map.1 hz
  rw [← e, if_neg]
  intro e2
  exact h (e2 ▸ List.mem_map_of_mem hy)

theorem opLR_eq_finset {F : QubitOperator} {S : Finset Circuit} (hS : ∀ t ∈ F, t.2 ∈ S) :
    F.opLR = ∑ s ∈ S, coefN F s • s.opLR := by
  classical
  induction F with
  | nil => simp [opLR, coefN]
  | cons x F ih =>
    have h1 : QubitOperator.opLR (x :: F) = x.1 • x.2.opLR + QubitOperator.opLR F := by simp [opLR]
    rw [h1, ih (fun t ht => hS t (by simp [ht]))]
    have h2 : ∀ s, coefN (x :: F) s = (if x.2 = s then x.1 else 0) + coefN F s := by
      intro s; simp [coefN]
    simp only [h2, add_smul, Finset.sum_add_distrib]
    congr 1
    rw [Finset.sum_eq_single x.2]
    · simp
    · intro b _ hb; rw [if_neg (fun e => hb e.symm), zero_smul]
    · intro h; exact absurd (hS x (by simp)) h

/-- two operators made of canonical strings that are equal as linear maps have the same coefficients -/
theorem coefN_determined {F G : QubitOperator} (hF : ∀ t ∈ F, t.2.Canonical) (hG : ∀ t ∈ G, t.2.Canonical)
    (h : F.opLR = G.opLR) (s : Circuit) : coefN F s = coefN G s := by
  classical
  let S : Finset Circuit := (F.map Prod.snd).toFinset ∪ (G.map Prod.snd).toFinset
  have hSF : ∀ t ∈ F, t.2 ∈ S := fun t ht => Finset.mem_union_left _ (List.mem_toFinset.2 (List.mem_map_of_mem ht))
  have hSG : ∀ t ∈ G, t.2 ∈ S := fun t ht => Finset.mem_union_right _ (List.mem_toFinset.2 (List.mem_map_of_mem ht))
  by_cases hs : s ∈ S
  · have h0 : ∑ s ∈ S, (coefN F s - coefN G s) • s.opLR = 0 := by
      have : ∀ s, (coefN F s - coefN G s) • s.opLR = coefN F s • s.opLR - coefN G s • s.opLR := fun s => Op.sub_smul _ _ _
      rw [Finset.sum_congr rfl (fun s _ => this s), Finset.sum_sub_distrib, ← opLR_eq_finset hSF, ← opLR_eq_finset hSG, h, sub_self]
    have hcan : ∀ i ∈ S, (id i : Circuit).Canonical := by
      intro i hi
      rcases Finset.mem_union.1 hi with h | h <;> obtain ⟨t, ht, e⟩ := List.mem_map.1 (List.mem_toFinset.1 h)
      · rw [← e]; exact hF t ht
      · rw [← e]; exact hG t ht
    exact sub_eq_zero.1 (pauli_independent S id _ hcan (fun i _ j _ e => e) h0 s hs)
  · have a : s ∉ F.map Prod.snd := fun h => hs (Finset.mem_union_left _ (List.mem_toFinset.2 h))
    have b : s ∉ G.map Prod.snd := fun h => hs (Finset.mem_union_right _ (List.mem_toFinset.2 h))
    rw [coefN_not_mem a, coefN_not_mem b]

/-- a sorted list of keys is determined by its members -/
theorem normal_ext {F G : QubitOperator} (hF : F.Normal) (hG : G.Normal) (h : ∀ t, t ∈ F ↔ t ∈ G) : F = G := by
  have nd : ∀ {R : QubitOperator}, R.Normal → R.Nodup := fun hR => List.Nodup.of_map _ (Normal.nodup hR)
  have hp : F.Perm G := (List.perm_ext_iff_of_nodup (nd hF) (nd hG)).2 h
  refine hp.eq_of_pairwise (le := fun a b => a.2.keys < b.2.keys) ?_ (Normal.keys hF) (Normal.keys hG)
  intro a b _ _ h1 h2
  exact absurd h1 (lt_asymm h2)

/-- the strongest form: what `simplify` returns depends only on the linear operator -/
theorem simplify_determined {A B : QubitOperator} (hA : ∀ t ∈ A, PauliCircuit t.2) (hB : ∀ t ∈ B, PauliCircuit t.2)
    (h : A.opLR = B.opLR) : A.simplify = B.simplify := by
  obtain ⟨F, _, nF, oF, _, eF⟩ := simplify_full hA
  obtain ⟨G, _, nG, oG, _, eG⟩ := simplify_full hB
  rw [eF, eG]
  congr 1
  refine normal_ext (Normal.filter nF _) (Normal.filter nG _) ?_
  have hc := coefN_determined nF.canonical nG.canonical (by rw [oF, oG, h])
  have key : ∀ {F G : QubitOperator}, F.Normal → G.Normal → (∀ s, coefN F s = coefN G s) → ∀ t,
      t ∈ F.filter (fun t => decide (‖t.1‖ > 1e-12)) → t ∈ G.filter (fun t => decide (‖t.1‖ > 1e-12)) := by
    intro F G nF nG hc t ht
    obtain ⟨h1, h2⟩ := List.mem_filter.1 ht
    refine List.mem_filter.2 ⟨?_, h2⟩
    have e1 := coefN_mem (Normal.nodup nF) h1
    by_cases hs : t.2 ∈ G.map Prod.snd
    · obtain ⟨u, hu, e⟩ := List.mem_map.1 hs
      have e2 := coefN_mem (Normal.nodup nG) hu
      have : u = t := Prod.ext (by rw [← e2, ← e1, e, hc]) e
      rw [← this]; exact hu
    · exfalso
      have := coefN_not_mem hs
      rw [← hc, e1] at this
      rw [this] at h2
      simp at h2
      norm_num at h2
  intro t
  exact ⟨key nF nG hc t, key nG nF (fun s => (hc s).symm) t⟩

end QF
