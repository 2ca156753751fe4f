import Verif.Props.TaperComm

/-! Row operations, the symplectic orthogonalisation, the Abelian subgroup and its elimination (C56, linear algebra). -/
namespace QF
namespace Taper
open Finset

/-- `B'` arises from `B` by invertible row operations -/
def RowOp (B B' : BMat) : Prop := B'.rows = B.rows ∧ B'.cols = B.cols ∧ ColOp B.rows (fun k r => B.e r k) (fun k r => B'.e r k)

theorem RowOp.refl (B : BMat) : RowOp B B := ⟨rfl, rfl, ColOp.refl _ _⟩

theorem RowOp.trans {A B C : BMat} (h : RowOp A B) (h' : RowOp B C) : RowOp A C :=
  ⟨h'.1.trans h.1, h'.2.1.trans h.2.1, h.2.2.trans (by have := h'.2.2; rw [h.1] at this; exact this)⟩

/-- adding row `a` to row `b` -/
theorem RowOp.add (B : BMat) {a b : ℕ} (ha : a < B.rows) (hb : b < B.rows) (hab : a ≠ b) :
    RowOp B { B with e := Function.update B.e b (fun j => B.e b j + B.e a j) } := by
  refine ⟨rfl, rfl, ?_⟩
  have := ColOp.xor (N := B.rows) (fun k r => B.e r k) ha hb hab
  have e : xorCol (fun k r => B.e r k) a b = fun k r => (Function.update B.e b (fun j => B.e b j + B.e a j)) r k := by
    funext k r
    unfold xorCol
    by_cases h : r = b
    · subst h; simp [add_comm]
    · simp [Function.update_of_ne h, h]
  rw [e] at this
  exact this

theorem RowOp.comb {B B' : BMat} (h : RowOp B B') : ∃ P : (ℕ → ZMod 2) ≃ (ℕ → ZMod 2), (∀ c d, EqOn B.rows c d ↔ EqOn B.rows (P c) (P d)) ∧
    P 0 = 0 ∧ ∀ c, comb B' c = comb B (P c) := by
  obtain ⟨h1, h2, P, p1, p2, p3⟩ := h
  refine ⟨P, p1, p2, fun c => ?_⟩
  funext k
  have := p3 k c
  unfold Taper.comb
  rw [h1]
  simpa [mul_comm] using this

theorem RowOp.independent {B B' : BMat} (h : RowOp B B') (hB : Independent B) : Independent B' := by
  obtain ⟨P, p1, p2, p3⟩ := h.comb
  intro c hc r hr
  rw [h.2.1, p3] at hc
  have := hB _ hc
  refine (p1 c 0).2 (fun j hj => ?_) r (h.1 ▸ hr)
  rw [p2, this j hj]; rfl

theorem RowOp.span {B B' : BMat} (h : RowOp B B') (v : ℕ → ZMod 2) : InSpan B' v ↔ InSpan B v := by
  obtain ⟨P, p1, p2, p3⟩ := h.comb
  constructor
  · rintro ⟨c, hc⟩
    refine ⟨P c, ?_⟩
    rw [← p3, ← h.2.1]; exact hc
  · rintro ⟨c, hc⟩
    obtain ⟨d, rfl⟩ := P.surjective c
    refine ⟨d, ?_⟩
    rw [p3, h.2.1]; exact hc

theorem inSpan_row (B : BMat) {r : ℕ} (hr : r < B.rows) : InSpan B (B.e r) := by
  refine ⟨Pi.single r 1, fun k _ => ?_⟩
  unfold comb
  have := sum_single B.rows (fun a => B.e a k) hr
  simpa [mul_comm] using this.symm

theorem inKernel_comb {E B : BMat} (hc : B.cols = E.cols) (h : ∀ r < B.rows, InKernel E (B.e r)) {v : ℕ → ZMod 2} (hv : InSpan B v) : InKernel E v := by
  obtain ⟨c, hv⟩ := hv
  intro i hi
  have e : ∀ j ∈ range E.cols, E.e i j * v j = ∑ r ∈ range B.rows, c r * (E.e i j * B.e r j) := by
    intro j hj
    rw [hv j (by rw [hc]; exact mem_range.1 hj), comb, mul_sum]
    exact sum_congr rfl fun r _ => by ring
  rw [sum_congr rfl e, sum_comm]
  apply sum_eq_zero
  intro r hr
  rw [← mul_sum, h r (mem_range.1 hr) i hi, mul_zero]

/-! ### the form -/

theorem symp_congr {n : ℕ} {v v' w w' : ℕ → ZMod 2} (hv : EqOn (2 * n) v v') (hw : EqOn (2 * n) w w') : symp n v w = symp n v' w' := by
  unfold symp
  apply sum_congr rfl
  intro k hk
  rw [mem_range] at hk
  rw [hv k (by omega), hv (n + k) (by omega), hw k (by omega), hw (n + k) (by omega)]

theorem symp_comm (n : ℕ) (v w : ℕ → ZMod 2) : symp n v w = symp n w v := by
  unfold symp; exact sum_congr rfl fun k _ => by ring

theorem symp_self (n : ℕ) (v : ℕ → ZMod 2) : symp n v v = 0 := by
  unfold symp
  apply sum_eq_zero
  intro k _
  rw [mul_comm (v (n + k))]; exact add_self2 _

theorem symp_add (n : ℕ) (v v' w : ℕ → ZMod 2) : symp n (fun j => v j + v' j) w = symp n v w + symp n v' w := by
  unfold symp; rw [← sum_add_distrib]; exact sum_congr rfl fun k _ => by ring

theorem symp_smul (n : ℕ) (a : ZMod 2) (v w : ℕ → ZMod 2) : symp n (fun j => a * v j) w = a * symp n v w := by
  unfold symp; rw [mul_sum]; exact sum_congr rfl fun k _ => by ring

theorem symp_comb (n : ℕ) (B : BMat) (c w : ℕ → ZMod 2) : symp n (comb B c) w = ∑ r ∈ range B.rows, c r * symp n (B.e r) w := by
  unfold symp comb
  simp only [mul_sum]
  rw [sum_comm]
  apply sum_congr rfl
  intro k _
  rw [sum_mul, sum_mul, ← sum_add_distrib]
  exact sum_congr rfl fun r _ => by ring

/-! ### symplectic Gram-Schmidt -/

/-- every vector anticommutes with at most one other -/
def AtMostOne (n : ℕ) (B : BMat) : Prop := ∀ p < B.rows, ∀ q < B.rows, ∀ q' < B.rows, symp n (B.e p) (B.e q) = 1 → symp n (B.e p) (B.e q') = 1 → q = q'

theorem sgsoFold (C : ℕ → ℕ → ZMod 2) (pr : List ℕ) (p1 p2 : ℕ) (h1 : p1 ∈ pr) (h2 : p2 ∈ pr) :
    ∀ (l : List ℕ) (B : BMat), l.Nodup → (∀ q ∈ l, q < B.rows) → p1 < B.rows → p2 < B.rows →
    RowOp B { B with e := l.foldl (sgsoUpdate C pr p1 p2) B.e } ∧
    ∀ q, (l.foldl (sgsoUpdate C pr p1 p2) B.e) q =
      if q ∈ l ∧ q ∉ pr then (fun j => B.e q j + (C q p2 * B.e p1 j + C q p1 * B.e p2 j)) else B.e q
  | [], B, _, _, _, _ => ⟨RowOp.refl _, fun q => by simp⟩
  | p :: l, B, hn, hl, b1, b2 => by
    rw [List.nodup_cons] at hn
    have hp := hl p (by simp)
    -- one update
    have step : RowOp B { B with e := sgsoUpdate C pr p1 p2 B.e p } ∧ ∀ q, sgsoUpdate C pr p1 p2 B.e p q =
        if q = p ∧ q ∉ pr then (fun j => B.e q j + (C q p2 * B.e p1 j + C q p1 * B.e p2 j)) else B.e q := by
      unfold sgsoUpdate
      by_cases hpr : p ∈ pr
      · rw [if_pos hpr]
        refine ⟨RowOp.refl _, fun q => ?_⟩
        rw [if_neg]; rintro ⟨rfl, h⟩; exact h hpr
      rw [if_neg hpr]
      have n1 : p1 ≠ p := fun h => hpr (h ▸ h1)
      have n2 : p2 ≠ p := fun h => hpr (h ▸ h2)
      have r1 := RowOp.add B b1 hp n1
      have r2 := RowOp.add B b2 hp n2
      have r3 := RowOp.add { B with e := Function.update B.e p (fun j => B.e p j + B.e p1 j) } b2 hp n2
      by_cases c2 : C p p2 = 0 <;> by_cases c1 : C p p1 = 0
      · simp only [c2, c1, ne_eq, not_true_eq_false, if_false]
        refine ⟨RowOp.refl _, fun q => ?_⟩
        split_ifs with h
        · obtain ⟨rfl, _⟩ := h; funext j; simp [c1, c2]
        · rfl
      · simp only [c2, z2_ne c1, ne_eq, not_true_eq_false, if_false, one_ne_zero, not_false_eq_true, if_true]
        refine ⟨r2, fun q => ?_⟩
        split_ifs with h
        · obtain ⟨rfl, _⟩ := h; rw [Function.update_self]; funext j; simp [z2_ne c1, c2]
        · rw [Function.update_of_ne]; intro h'; exact h ⟨h', h' ▸ hpr⟩
      · simp only [z2_ne c2, c1, ne_eq, not_true_eq_false, if_false, one_ne_zero, not_false_eq_true, if_true]
        refine ⟨r1, fun q => ?_⟩
        split_ifs with h
        · obtain ⟨rfl, _⟩ := h; rw [Function.update_self]; funext j; simp [z2_ne c2, c1]
        · rw [Function.update_of_ne]; intro h'; exact h ⟨h', h' ▸ hpr⟩
      · simp only [z2_ne c2, z2_ne c1, ne_eq, one_ne_zero, not_false_eq_true, if_true]
        refine ⟨r1.trans r3, fun q => ?_⟩
        split_ifs with h
        · obtain ⟨rfl, _⟩ := h; rw [Function.update_self]; funext j
          simp [z2_ne c2, z2_ne c1, Function.update_of_ne n2, add_assoc]
        · rw [Function.update_of_ne, Function.update_of_ne] <;> (intro h'; exact h ⟨h', h' ▸ hpr⟩)
    obtain ⟨s1, s2⟩ := step
    obtain ⟨i1, i2⟩ := sgsoFold C pr p1 p2 h1 h2 l { B with e := sgsoUpdate C pr p1 p2 B.e p } hn.2 (fun q hq => hl q (by simp [hq])) b1 b2
    refine ⟨s1.trans i1, fun q => ?_⟩
    rw [List.foldl_cons, i2]
    have e1 : sgsoUpdate C pr p1 p2 B.e p p1 = B.e p1 := by rw [s2, if_neg]; exact fun h => h.2 h1
    have e2 : sgsoUpdate C pr p1 p2 B.e p p2 = B.e p2 := by rw [s2, if_neg]; exact fun h => h.2 h2
    simp only [e1, e2, s2]
    by_cases hq : q = p
    · subst hq; simp [hn.1]
    · simp [hq]

/-- the state of the orthogonalisation after the vectors `< d` -/
structure SInv (n : ℕ) (B₀ : BMat) (d : ℕ) (s : SgsoVars) : Prop where
  C : s.C = commutation s.B
  row : RowOp B₀ s.B
  done : ∀ r < d, r ∈ s.processed
  sep : ∀ p ∈ s.processed, ∀ q < s.B.rows, q ∉ s.processed → symp n (s.B.e p) (s.B.e q) = 0
  one : ∀ p ∈ s.processed, ∀ q < s.B.rows, ∀ q' < s.B.rows, symp n (s.B.e p) (s.B.e q) = 1 → symp n (s.B.e p) (s.B.e q') = 1 → q = q'

theorem sgsoStep_inv {n : ℕ} {B₀ : BMat} (hcols : B₀.cols = 2 * n) {d : ℕ} {s : SgsoVars} (h : SInv n B₀ d s) (hd : d < B₀.rows) :
    SInv n B₀ (d + 1) (sgsoStep s d) := by
  obtain ⟨B, C, pr⟩ := s
  obtain ⟨hC, row, done, sep, one⟩ := h
  simp only at hC row done sep one
  have hBc : B.cols = 2 * n := row.2.1.trans hcols
  have hBr : B.rows = B₀.rows := row.1
  have ent : ∀ i j, C.e i j = symp n (B.e i) (B.e j) := fun i j => by rw [hC]; exact commutation_entry B n hBc i j
  have hCc : C.cols = B.rows := by rw [hC]; rfl
  unfold sgsoStep
  simp only
  by_cases hin : d ∈ pr
  · rw [if_pos hin]
    refine ⟨hC, row, fun r hr => ?_, sep, one⟩
    rcases Nat.lt_succ_iff_lt_or_eq.1 hr with hr | rfl
    · exact done r hr
    · exact hin
  rw [if_neg hin]
  have hdone : ∀ r < d + 1, r ∈ d :: pr := fun r hr => by
    rcases Nat.lt_succ_iff_lt_or_eq.1 hr with hr | rfl
    · exact List.mem_cons_of_mem _ (done r hr)
    · simp
  have hmem : ∀ j, j ∈ (List.range C.cols).filter (fun j => C.e d j ≠ 0) ↔ j < B.rows ∧ symp n (B.e d) (B.e j) = 1 := by
    intro j
    rw [List.mem_filter, List.mem_range, hCc, ent]
    constructor
    · rintro ⟨h1, h2⟩; exact ⟨h1, z2_ne (by simpa using h2)⟩
    · rintro ⟨h1, h2⟩; exact ⟨h1, by rw [h2]; decide⟩
  by_cases hem : (List.range C.cols).filter (fun j => C.e d j ≠ 0) = []
  · rw [if_pos hem]
    have hz : ∀ j < B.rows, symp n (B.e d) (B.e j) = 0 := by
      intro j hj
      by_contra hc
      have := (hmem j).2 ⟨hj, z2_ne hc⟩
      rw [hem] at this; simp at this
    refine ⟨hC, row, hdone, ?_, ?_⟩
    · intro p hp q hq hqn
      rcases List.mem_cons.1 hp with rfl | hp
      · exact hz q hq
      · exact sep p hp q hq (fun h => hqn (List.mem_cons_of_mem _ h))
    · intro p hp q hq q' hq' e1 e2
      rcases List.mem_cons.1 hp with rfl | hp
      · simp only at hq; rw [hz q hq] at e1; exact absurd e1 (by decide)
      · exact one p hp q hq q' hq' e1 e2
  rw [if_neg hem]
  have hnp : ∀ j ∈ (List.range C.cols).filter (fun j => C.e d j ≠ 0), j ∉ d :: pr := by
    intro j hj hc
    obtain ⟨h1, h2⟩ := (hmem j).1 hj
    rcases List.mem_cons.1 hc with rfl | hc
    · rw [symp_self] at h2; exact absurd h2 (by decide)
    · rw [symp_comm, sep j hc d (by omega) hin] at h2; exact absurd h2 (by decide)
  split
  · rename_i hf
    exfalso
    obtain ⟨j, l, e⟩ := List.exists_cons_of_ne_nil hem
    rw [List.find?_eq_none] at hf
    have hj : j ∈ (List.range C.cols).filter (fun j => C.e d j ≠ 0) := by rw [e]; simp
    have := hf j hj
    have h2 := hnp j hj
    simp only [decide_eq_true_eq, Decidable.not_not] at this
    exact h2 this
  · rename_i p2 hf
    have hp2 := List.mem_of_find?_eq_some hf
    obtain ⟨b2, a2⟩ := (hmem p2).1 hp2
    have np2 := hnp p2 hp2
    have b1 : d < B.rows := by omega
    obtain ⟨f1, f2⟩ := sgsoFold C.e (p2 :: d :: pr) d p2 (by simp) (by simp) (List.range B.rows) B List.nodup_range (fun q hq => List.mem_range.1 hq) b1 b2
    set B' : BMat := { B with e := (List.range B.rows).foldl (sgsoUpdate C.e (p2 :: d :: pr) d p2) B.e } with hB'
    have old : ∀ p ∈ p2 :: d :: pr, B'.e p = B.e p := fun p hp => by
      have := f2 p
      rw [if_neg (fun h => h.2 hp)] at this; exact this
    have new : ∀ q < B.rows, q ∉ p2 :: d :: pr → ∀ w, symp n (B'.e q) w =
        symp n (B.e q) w + (symp n (B.e q) (B.e p2) * symp n (B.e d) w + symp n (B.e q) (B.e d) * symp n (B.e p2) w) := by
      intro q hq hqn w
      have eq : B'.e q = fun j => B.e q j + (C.e q p2 * B.e d j + C.e q d * B.e p2 j) := by
        have := f2 q
        rw [if_pos ⟨List.mem_range.2 hq, hqn⟩] at this; exact this
      rw [eq, symp_add n (B.e q) (fun j => C.e q p2 * B.e d j + C.e q d * B.e p2 j),
        symp_add n (fun j => C.e q p2 * B.e d j) (fun j => C.e q d * B.e p2 j), symp_smul, symp_smul, ent, ent]
    have sep' : ∀ p ∈ p2 :: d :: pr, ∀ q < B.rows, q ∉ p2 :: d :: pr → symp n (B'.e p) (B'.e q) = 0 := by
      intro p hp q hq hqn
      rw [symp_comm, new q hq hqn, old p hp]
      rcases List.mem_cons.1 hp with rfl | hp'
      · rw [a2, symp_self, mul_one, mul_zero, add_zero]; exact add_self2 _
      rcases List.mem_cons.1 hp' with rfl | hp'
      · rw [symp_self, symp_comm n (B.e p2), a2, mul_one, mul_zero, zero_add]; exact add_self2 _
      · have hq' : q ∉ pr := fun h => hqn (by simp [h])
        have e1 := sep p hp' q hq hq'
        have e2 := sep p hp' d b1 hin
        have e3 := sep p hp' p2 b2 (fun h => np2 (by simp [h]))
        rw [symp_comm n _ (B.e p), e1, symp_comm n _ (B.e p), e2, symp_comm n _ (B.e p), e3]
        simp
    refine ⟨rfl, row.trans f1, ?_, sep', ?_⟩
    · intro r hr; exact List.mem_cons_of_mem _ (hdone r hr)
    · intro p hp q hq q' hq' e1 e2
      have mem : ∀ x < B.rows, symp n (B'.e p) (B'.e x) = 1 → x ∈ p2 :: d :: pr := by
        intro x hx hs
        by_contra hc
        rw [sep' p hp x hx hc] at hs; exact absurd hs (by decide)
      have m1 := mem q hq e1
      have m2 := mem q' hq' e2
      simp only at e1 e2
      rw [old p hp, old q m1] at e1
      rw [old p hp, old q' m2] at e2
      -- the two new vectors see only each other
      have newPair : ∀ x < B.rows, x ∈ p2 :: d :: pr → (symp n (B.e d) (B.e x) = 1 → x = p2) ∧ (symp n (B.e p2) (B.e x) = 1 → x = d) := by
        intro x hx hm
        rcases List.mem_cons.1 hm with rfl | hm'
        · exact ⟨fun _ => rfl, fun h => by rw [symp_self] at h; exact absurd h (by decide)⟩
        rcases List.mem_cons.1 hm' with rfl | hm'
        · exact ⟨fun h => by rw [symp_self] at h; exact absurd h (by decide), fun _ => rfl⟩
        · refine ⟨fun h => ?_, fun h => ?_⟩
          · rw [symp_comm, sep x hm' d b1 hin] at h; exact absurd h (by decide)
          · rw [symp_comm, sep x hm' p2 b2 (fun h => np2 (by simp [h]))] at h; exact absurd h (by decide)
      rcases List.mem_cons.1 hp with rfl | hp'
      · rw [(newPair q hq m1).2 e1, (newPair q' hq' m2).2 e2]
      rcases List.mem_cons.1 hp' with rfl | hp'
      · rw [(newPair q hq m1).1 e1, (newPair q' hq' m2).1 e2]
      · exact one p hp' q hq q' hq' e1 e2

/-- the orthogonalisation: the result spans the same space, is independent if the input is, its commutation matrix is returned
with it, and every vector anticommutes with at most one other -/
theorem sgso_spec (n : ℕ) (B : BMat) (hcols : B.cols = 2 * n) : RowOp B (sgso B (commutation B)).1 ∧
    (sgso B (commutation B)).2 = commutation (sgso B (commutation B)).1 ∧ AtMostOne n (sgso B (commutation B)).1 := by
  have loop : ∀ d ≤ B.rows, SInv n B d ((List.range d).foldl sgsoStep { B := B, C := commutation B, processed := [] }) := by
    intro d
    induction d with
    | zero => intro _; exact ⟨rfl, RowOp.refl _, fun r hr => by omega, fun p hp => by simp at hp, fun p hp => by simp at hp⟩
    | succ d ih => intro hd; rw [List.range_succ, List.foldl_append]; exact sgsoStep_inv hcols (ih (by omega)) (by omega)
  have h := loop B.rows (le_refl _)
  refine ⟨h.row, h.C, ?_⟩
  intro p hp q hq q' hq'
  exact h.one p (h.done p (by have := h.row.1; unfold sgso at hp; simp only at hp; omega)) q hq q' hq'

end Taper
end QF
