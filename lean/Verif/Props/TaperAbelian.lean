import Verif.Props.TaperGroup

/-! The maximal Abelian subgroup and its elimination (C56, linear algebra). -/
namespace QF
namespace Taper
open Finset

/-- `B'` consists of the rows of `B` with the (increasing) indices `ks` -/
structure IsSelect (B : BMat) (ks : List ℕ) (B' : BMat) : Prop where
  sorted : ks.Pairwise (· < ·)
  lt : ∀ k ∈ ks, k < B.rows
  rows : B'.rows = ks.length
  cols : B'.cols = B.cols
  e : ∀ r < ks.length, B'.e r = B.e (ks.getD r 0)

theorem getD_mem {ks : List ℕ} {r : ℕ} (h : r < ks.length) : ks.getD r 0 ∈ ks := by
  rw [List.getD_eq_getElem _ _ h]; exact List.getElem_mem h

theorem exists_getD {ks : List ℕ} {k : ℕ} (h : k ∈ ks) : ∃ r < ks.length, ks.getD r 0 = k := by
  obtain ⟨r, hr, e⟩ := List.getElem_of_mem h
  exact ⟨r, hr, by rw [List.getD_eq_getElem _ _ hr, e]⟩

theorem IsSelect.trans {A B C : BMat} {ks ks' : List ℕ} (h : IsSelect A ks B) (h' : IsSelect B ks' C) :
    IsSelect A (ks'.map fun r => ks.getD r 0) C := by
  have lt' : ∀ k ∈ ks', k < ks.length := fun k hk => h.rows ▸ h'.lt k hk
  refine ⟨?_, ?_, by rw [h'.rows, List.length_map], h'.cols.trans h.cols, ?_⟩
  · rw [List.pairwise_map]
    refine h'.sorted.imp_of_mem ?_
    intro a b ha hb hab
    rw [List.getD_eq_getElem _ _ (lt' a ha), List.getD_eq_getElem _ _ (lt' b hb)]
    exact List.pairwise_iff_getElem.1 h.sorted _ _ (lt' a ha) (lt' b hb) hab
  · intro k hk
    obtain ⟨r, hr, rfl⟩ := List.mem_map.1 hk
    exact h.lt _ (getD_mem (lt' r hr))
  · intro r hr
    rw [List.length_map] at hr
    rw [h'.e r hr, h.e _ (lt' _ (getD_mem hr))]
    congr 1
    rw [List.getD_eq_getElem (ks'.map _) _ (by simpa using hr), List.getElem_map, List.getD_eq_getElem _ _ hr]

theorem deleteRows_select (B : BMat) (del : List ℕ) : IsSelect B ((List.range B.rows).filter fun r => r ∉ del) (deleteRows B del) :=
  ⟨List.pairwise_lt_range.filter _, fun k hk => List.mem_range.1 (List.mem_filter.1 hk).1, rfl, rfl, fun _ _ => rfl⟩

theorem sum_select {B : BMat} {ks : List ℕ} (hs : ks.Pairwise (· < ·)) (hl : ∀ k ∈ ks, k < B.rows) (f : ℕ → ZMod 2) (hf : ∀ j < B.rows, j ∉ ks → f j = 0) :
    ∑ j ∈ range B.rows, f j = ∑ r ∈ range ks.length, f (ks.getD r 0) := by
  have nd : ks.Nodup := hs.imp (fun h => Nat.ne_of_lt h)
  have e1 : ∑ j ∈ range B.rows, f j = ∑ j ∈ ks.toFinset, f j := by
    symm
    apply Finset.sum_subset
    · intro j hj; exact mem_range.2 (hl j (List.mem_toFinset.1 hj))
    · intro j hj hn; exact hf j (mem_range.1 hj) (fun h => hn (List.mem_toFinset.2 h))
  rw [e1, List.sum_toFinset _ nd, Finset.sum_range]
  have : ks.map f = List.ofFn (fun i : Fin ks.length => f (ks.getD i 0)) := by
    apply List.ext_getElem
    · simp
    · intro i h1 h2; simp
  rw [this, List.sum_ofFn]

theorem IsSelect.independent {B B' : BMat} {ks : List ℕ} (h : IsSelect B ks B') (hB : Independent B) : Independent B' := by
  intro c hc r hr
  rw [h.rows] at hr
  have nd : ks.Nodup := h.sorted.imp (fun h => Nat.ne_of_lt h)
  set d : ℕ → ZMod 2 := fun j => if j ∈ ks then c (ks.idxOf j) else 0 with hd
  have hidx : ∀ r < ks.length, d (ks.getD r 0) = c r := by
    intro r hr
    rw [hd]; simp only
    rw [if_pos (getD_mem hr), List.getD_eq_getElem _ _ hr, nd.idxOf_getElem]
  have := hB d ?_ (ks.getD r 0) (h.lt _ (getD_mem hr))
  · rw [hidx r hr] at this; exact this
  · intro k hk
    rw [← hc k (by rw [h.cols]; exact hk)]
    unfold comb
    rw [sum_select h.sorted h.lt (fun r => d r * B.e r k), h.rows]
    · apply sum_congr rfl
      intro r hr
      rw [hidx r (mem_range.1 hr), h.e r (mem_range.1 hr)]
    · intro j _ hj; rw [hd]; simp [hj]

theorem IsSelect.span {B B' : BMat} {ks : List ℕ} (h : IsSelect B ks B') {c : ℕ → ZMod 2} (hc : ∀ j < B.rows, j ∉ ks → c j = 0) :
    InSpan B' (comb B c) := by
  refine ⟨fun r => c (ks.getD r 0), fun k _ => ?_⟩
  unfold comb
  rw [sum_select h.sorted h.lt (fun r => c r * B.e r k) (fun j hj hn => by rw [hc j hj hn, zero_mul]), h.rows]
  apply sum_congr rfl
  intro r hr
  rw [h.e r (mem_range.1 hr)]

/-! ### the while loop -/

/-- number of vectors row `r` anticommutes with -/
def weight (C : BMat) (r : ℕ) : ℕ := ∑ j ∈ range C.cols, (C.e r j).val

theorem pick_inv (C : BMat) (m : ℕ) : ∀ l : List ℕ, ∀ s : ℕ × ℕ, (s = (m, 0) ∨ (0 < weight C s.2 ∧ s.1 = weight C s.2 ∧ s.2 < C.rows)) → (∀ r ∈ l, r < C.rows) →
    let t := l.foldl (pickRow C) s
    (t = (m, 0) ∧ s = (m, 0) ∧ ∀ r ∈ l, ¬ (0 < weight C r ∧ weight C r < m)) ∨ (0 < weight C t.2 ∧ t.1 = weight C t.2 ∧ t.2 < C.rows)
  | [], s, hs, _ => by
    rcases hs with hs | hs
    · exact .inl ⟨hs, hs, fun r hr => by simp at hr⟩
    · exact .inr hs
  | r :: l, s, hs, hl => by
    simp only [List.foldl_cons]
    have hr := hl r (by simp)
    by_cases hp : weight C r > 0 ∧ s.1 > weight C r
    · have e : pickRow C s r = (weight C r, r) := by unfold pickRow; exact if_pos hp
      rw [e]
      rcases pick_inv C m l (weight C r, r) (.inr ⟨hp.1, rfl, hr⟩) (fun x hx => hl x (by simp [hx])) with h | h
      · right
        rw [h.1]
        have h2 := h.2.1
        simp only [Prod.mk.injEq] at h2
        simp only
        obtain ⟨a, b⟩ := h2
        subst b
        exact ⟨hp.1, a.symm, hr⟩
      · exact .inr h
    · have e : pickRow C s r = s := by unfold pickRow; exact if_neg hp
      rw [e]
      rcases pick_inv C m l s hs (fun x hx => hl x (by simp [hx])) with h | h
      · left
        refine ⟨h.1, h.2.1, ?_⟩
        intro x hx
        rcases List.mem_cons.1 hx with rfl | hx
        · rw [h.2.1] at hp; exact fun h' => hp ⟨h'.1, h'.2⟩
        · exact h.2.2 x hx
      · exact .inr h

theorem pick_spec (C : BMat) (m : ℕ) (h : ∃ r < C.rows, 0 < weight C r ∧ weight C r < m) :
    let t := (List.range C.rows).foldl (pickRow C) (m, 0)
    0 < weight C t.2 ∧ t.2 < C.rows := by
  intro t
  rcases pick_inv C m (List.range C.rows) (m, 0) (.inl rfl) (fun r hr => List.mem_range.1 hr) with h1 | h1
  · obtain ⟨r, hr, hw⟩ := h
    exact absurd hw (h1.2.2 r (List.mem_range.2 hr))
  · exact ⟨h1.1, h1.2.2⟩

/-- the loop ends, and with the orthogonalised basis the rows it keeps commute pairwise while every row it removes anticommutes
with one that is kept -/
theorem abelianLoop_spec (n : ℕ) : ∀ (fuel : ℕ) (B : BMat), B.cols = 2 * n → B.rows < fuel → B.rows ≤ 2 * n → AtMostOne n B →
    ∃ B' ks, abelianLoop n fuel B (commutation B) = .ok B' ∧ IsSelect B ks B' ∧
      (∀ k ∈ ks, ∀ k' ∈ ks, symp n (B.e k) (B.e k') = 0) ∧
      (∀ d < B.rows, d ∉ ks → ∃ k ∈ ks, symp n (B.e k) (B.e d) = 1) ∧
      (∀ r < B.rows, (∀ q < B.rows, symp n (B.e r) (B.e q) = 0) → r ∈ ks)
  | 0, B, _, hf, _, _ => by omega
  | fuel + 1, B, hc, hf, h2n, one => by
    have ent := commutation_entry B n hc
    set C := commutation B with hC
    have hCr : C.rows = B.rows := rfl
    have hCc : C.cols = B.rows := rfl
    unfold abelianLoop
    by_cases hall : (List.range C.rows).all (fun i => (List.range C.cols).all fun j => C.e i j = 0) = true
    · rw [if_pos hall]
      simp only [List.all_eq_true, List.mem_range, decide_eq_true_eq, hCr, hCc] at hall
      have hz : ∀ i < B.rows, ∀ j < B.rows, symp n (B.e i) (B.e j) = 0 := fun i hi j hj => by rw [← ent]; exact hall i hi j hj
      refine ⟨B, List.range B.rows, rfl, ⟨List.pairwise_lt_range, fun k hk => List.mem_range.1 hk, by simp, rfl, fun r hr => ?_⟩, ?_, ?_, ?_⟩
      · rw [List.getD_eq_getElem _ _ hr]; simp
      · intro k hk k' hk'; exact hz k (List.mem_range.1 hk) k' (List.mem_range.1 hk')
      · intro d hd hn; exact absurd (List.mem_range.2 hd) hn
      · intro r hr _; exact List.mem_range.2 hr
    · rw [if_neg hall]
      -- weights
      have hpos : ∀ r < B.rows, (0 < weight C r ↔ ∃ q < B.rows, symp n (B.e r) (B.e q) = 1) := by
        intro r _
        unfold weight
        constructor
        · intro h
          by_contra hcon
          push Not at hcon
          have : ∑ j ∈ range C.cols, (C.e r j).val = 0 := by
            apply sum_eq_zero
            intro j hj
            have h1 := hcon j (mem_range.1 hj)
            rw [← ent] at h1
            have : C.e r j = 0 := by by_contra h0; exact h1 (z2_ne h0)
            rw [this]; rfl
          omega
        · rintro ⟨q, hq, h⟩
          refine Finset.sum_pos' (fun _ _ => Nat.zero_le _) ⟨q, mem_range.2 hq, ?_⟩
          rw [ent, h]; decide
      have hlt : ∀ r < B.rows, weight C r < 2 * n := by
        intro r hr
        have : weight C r < B.rows := by
          unfold weight
          rw [hCc]
          calc ∑ j ∈ range B.rows, (C.e r j).val < ∑ j ∈ range B.rows, 1 := by
                apply Finset.sum_lt_sum
                · intro j _; have := ZMod.val_lt (C.e r j); omega
                · exact ⟨r, mem_range.2 hr, by rw [ent, symp_self]; decide⟩
            _ = B.rows := by simp
        omega
      have hex : ∃ r < C.rows, 0 < weight C r ∧ weight C r < 2 * n := by
        by_contra hcon
        apply hall
        simp only [List.all_eq_true, List.mem_range, decide_eq_true_eq]
        intro i hi j hj
        by_contra h0
        refine hcon ⟨i, hi, (hpos i hi).2 ⟨j, hj, ?_⟩, hlt i hi⟩
        rw [← ent]; exact z2_ne h0
      obtain ⟨w1, w2⟩ := pick_spec C (2 * n) hex
      simp only
      set idx := ((List.range C.rows).foldl (pickRow C) (2 * n, 0)).2 with hidx
      obtain ⟨d, hd, hsd⟩ := (hpos idx w2).1 w1
      have hdel : ∀ j, j ∈ (List.range C.cols).filter (fun j => C.e idx j ≠ 0) ↔ j = d := by
        intro j
        rw [List.mem_filter, List.mem_range, ent]
        constructor
        · rintro ⟨h1, h2⟩
          exact one idx w2 j h1 d hd (z2_ne (by simpa using h2)) hsd
        · rintro rfl; exact ⟨hd, by rw [hsd]; decide⟩
      have sel := deleteRows_select B ((List.range C.cols).filter (fun j => C.e idx j ≠ 0))
      set B1 := deleteRows B ((List.range C.cols).filter (fun j => C.e idx j ≠ 0)) with hB1
      set ks1 := (List.range B.rows).filter (fun r => r ∉ (List.range C.cols).filter (fun j => C.e idx j ≠ 0)) with hks1
      have m1 : ∀ r, r ∈ ks1 ↔ r < B.rows ∧ r ≠ d := by
        intro r
        rw [hks1, List.mem_filter, List.mem_range, decide_eq_true_eq, hdel]
      have hr1 : B1.rows < B.rows := by
        rw [sel.rows]
        have : ks1.length < (List.range B.rows).length := by
          rw [hks1]
          refine List.length_filter_lt_length_iff_exists.2 ⟨d, List.mem_range.2 hd, ?_⟩
          have := (hdel d).2 rfl
          simpa using this
        simpa using this
      have one1 : AtMostOne n B1 := by
        intro p hp q hq q' hq' e1 e2
        rw [sel.rows] at hp hq hq'
        rw [sel.e p hp, sel.e q hq] at e1
        rw [sel.e p hp, sel.e q' hq'] at e2
        have := one _ (sel.lt _ (getD_mem hp)) _ (sel.lt _ (getD_mem hq)) _ (sel.lt _ (getD_mem hq')) e1 e2
        have nd : ks1.Nodup := sel.sorted.imp (fun h => Nat.ne_of_lt h)
        rw [List.getD_eq_getElem _ _ hq, List.getD_eq_getElem _ _ hq'] at this
        exact (nd.getElem_inj_iff).1 this
      obtain ⟨B', ks', e, sel', c1, c2, c3⟩ := abelianLoop_spec n fuel B1 (sel.cols.trans hc) (by omega) (by omega) one1
      have val : ∀ r ∈ ks', B1.e r = B.e (ks1.getD r 0) := fun r hr => sel.e r (sel.rows ▸ sel'.lt r hr)
      have sub : ∀ q < B1.rows, ks1.getD q 0 < B.rows := fun q hq => sel.lt _ (getD_mem (sel.rows ▸ hq))
      refine ⟨B', ks'.map (fun r => ks1.getD r 0), e, sel.trans sel', ?_, ?_, ?_⟩
      · intro k hk k' hk'
        obtain ⟨r, hr, rfl⟩ := List.mem_map.1 hk
        obtain ⟨r', hr', rfl⟩ := List.mem_map.1 hk'
        rw [← val r hr, ← val r' hr']
        exact c1 r hr r' hr'
      · intro x hx hn
        by_cases hxd : x = d
        · -- the removed vector anticommutes with `idx`, which stays
          subst hxd
          have hidx1 : idx ∈ ks1 := (m1 idx).2 ⟨w2, fun h => by rw [h, symp_self] at hsd; exact absurd hsd (by decide)⟩
          obtain ⟨r, hr, hre⟩ := exists_getD hidx1
          refine ⟨idx, List.mem_map.2 ⟨r, c3 r (sel.rows ▸ hr) ?_, hre⟩, hsd⟩
          intro q hq
          rw [sel.e r hr, hre, sel.e q (sel.rows ▸ hq)]
          by_contra h0
          have := one idx w2 _ (sub q hq) x hd (z2_ne h0) hsd
          exact ((m1 _).1 (getD_mem (sel.rows ▸ hq))).2 this
        · obtain ⟨r, hr, rfl⟩ := exists_getD ((m1 x).2 ⟨hx, hxd⟩)
          have hrn : r ∉ ks' := fun h => hn (List.mem_map.2 ⟨r, h, rfl⟩)
          obtain ⟨k, hk, hs⟩ := c2 r (sel.rows ▸ hr) hrn
          refine ⟨ks1.getD k 0, List.mem_map.2 ⟨k, hk, rfl⟩, ?_⟩
          rw [← val k hk, ← sel.e r hr]; exact hs
      · intro r hr hz
        have hrd : r ≠ d := by
          rintro rfl
          have := hz idx w2
          rw [symp_comm, hsd] at this; exact absurd this (by decide)
        obtain ⟨x, hx, rfl⟩ := exists_getD ((m1 r).2 ⟨hr, hrd⟩)
        refine List.mem_map.2 ⟨x, c3 x (sel.rows ▸ hx) ?_, rfl⟩
        intro q hq
        rw [sel.e x hx, sel.e q (sel.rows ▸ hq)]
        exact hz _ (sub q hq)

/-! ### the elimination -/

theorem addRows (R r : ℕ) (hr : r < R) (cols : ℕ) : ∀ (l : List ℕ) (G : ℕ → ℕ → ZMod 2), l.Nodup → (∀ el ∈ l, el < R ∧ el ≠ r) →
    RowOp ⟨R, cols, G⟩ ⟨R, cols, l.foldl (fun (G : ℕ → ℕ → ZMod 2) el => Function.update G el fun j => G el j + G r j) G⟩ ∧
    ∀ q j, (l.foldl (fun (G : ℕ → ℕ → ZMod 2) el => Function.update G el fun j => G el j + G r j) G) q j = if q ∈ l then G q j + G r j else G q j
  | [], G, _, _ => ⟨RowOp.refl _, fun q j => by simp⟩
  | el :: l, G, hn, hl => by
    rw [List.nodup_cons] at hn
    have he := hl el (by simp)
    obtain ⟨i1, i2⟩ := addRows R r hr cols l (Function.update G el fun j => G el j + G r j) hn.2 (fun x hx => hl x (by simp [hx]))
    refine ⟨(RowOp.add ⟨R, cols, G⟩ hr he.1 (Ne.symm he.2)).trans i1, fun q j => ?_⟩
    rw [List.foldl_cons, i2, Function.update_of_ne (Ne.symm he.2)]
    by_cases hq : q = el
    · subst hq; simp [hn.1]
    · simp [hq, Function.update_of_ne hq]

/-- the state of the elimination after the columns `done` -/
structure EInv (R cols : ℕ) (G₀ : ℕ → ℕ → ZMod 2) (done : List ℕ) (s : (ℕ → ℕ → ZMod 2) × List ℕ × ℕ) : Prop where
  row : RowOp ⟨R, cols, G₀⟩ ⟨R, cols, s.1⟩
  len : s.2.2 = s.2.1.length
  nd : s.2.1.Nodup
  lt : ∀ r ∈ s.2.1, r < R
  pivot : ∀ r ∈ s.2.1, ∃ c ∈ done, ∀ q < R, s.1 q c ≠ 0 ↔ q = r
  rest : ∀ q < R, q ∉ s.2.1 → ∀ c ∈ done, s.1 q c = 0

theorem elimStep_inv {R cols : ℕ} {G₀ : ℕ → ℕ → ZMod 2} {done : List ℕ} {s : (ℕ → ℕ → ZMod 2) × List ℕ × ℕ} (h : EInv R cols G₀ done s) (c : ℕ) :
    EInv R cols G₀ (done ++ [c]) (elimStep R s c) := by
  obtain ⟨G, lst, k⟩ := s
  obtain ⟨row, len, nd, lt, piv, rest⟩ := h
  simp only at row len nd lt piv rest
  have hmem : ∀ r, r ∈ (List.range R).filter (fun r => G r c ≠ 0) ↔ r < R ∧ G r c ≠ 0 := by
    intro r; rw [List.mem_filter, List.mem_range]; simp
  -- nothing to do when every non-zero row is a pivot already
  have skip : (∀ r < R, G r c ≠ 0 → r ∈ lst) → EInv R cols G₀ (done ++ [c]) (G, lst, k) := by
    intro hs
    refine ⟨row, len, nd, lt, fun r hr => ?_, fun q hq hqn x hx => ?_⟩
    · obtain ⟨x, hx, h⟩ := piv r hr; exact ⟨x, by simp [hx], h⟩
    · rw [List.mem_append, List.mem_singleton] at hx
      rcases hx with hx | rfl
      · exact rest q hq hqn x hx
      · by_contra h0; exact hqn (hs q hq h0)
  -- a new pivot `r`
  have pivot : ∀ r, r ∉ lst → r < R → ∀ G' : ℕ → ℕ → ZMod 2, RowOp ⟨R, cols, G⟩ ⟨R, cols, G'⟩ → (∀ q < R, ∀ x ∈ done, G' q x = G q x) →
      (∀ q < R, G' q c ≠ 0 ↔ q = r) → EInv R cols G₀ (done ++ [c]) (G', lst ++ [r], k + 1) := by
    intro r hr hrR G' hG' hd hc
    refine ⟨row.trans hG', by simp [len], ?_, ?_, ?_, ?_⟩
    · simp only
      rw [List.nodup_append]
      refine ⟨nd, by simp, fun a ha b hb hab => ?_⟩
      rw [List.mem_singleton] at hb; subst hb; subst hab; exact hr ha
    · intro x hx
      simp only [List.mem_append, List.mem_singleton] at hx
      rcases hx with hx | rfl
      · exact lt x hx
      · exact hrR
    · intro x hx
      simp only [List.mem_append, List.mem_singleton] at hx
      rcases hx with hx | rfl
      · obtain ⟨y, hy, h⟩ := piv x hx
        refine ⟨y, by simp [hy], fun q hq => ?_⟩
        simp only
        rw [hd q hq y hy]; exact h q hq
      · exact ⟨c, by simp, hc⟩
    · intro q hq hqn x hx
      simp only [List.mem_append, List.mem_singleton, not_or] at hqn hx
      rcases hx with hx | rfl
      · simp only; rw [hd q hq x hx]; exact rest q hq hqn.1 x hx
      · by_contra h0; exact hqn.2 ((hc q hq).1 h0)
  unfold elimStep
  simp only
  split
  · rename_i r e
    have hr : r < R ∧ G r c ≠ 0 := (hmem r).1 (by rw [e]; simp)
    have only : ∀ q < R, G q c ≠ 0 ↔ q = r := by
      intro q hq
      constructor
      · intro h
        have := (hmem q).2 ⟨hq, h⟩
        rw [e] at this; simpa using this
      · rintro rfl; exact hr.2
    by_cases hin : r ∈ lst
    · rw [if_neg (by simpa using hin)]
      apply skip
      intro q hq h
      rw [(only q hq).1 h]; exact hin
    · rw [if_pos hin]
      exact pivot r hin hr.1 G (RowOp.refl _) (fun _ _ _ _ => rfl) only
  · split
    · rename_i hf
      apply skip
      intro q hq h
      rw [List.find?_eq_none] at hf
      have := hf q ((hmem q).2 ⟨hq, h⟩)
      simpa using this
    · rename_i r hf
      have hr := (hmem r).1 (List.mem_of_find?_eq_some hf)
      have hrn : r ∉ lst := by simpa using List.find?_some hf
      obtain ⟨f1, f2⟩ := addRows R r hr.1 cols (((List.range R).filter (fun r => G r c ≠ 0)).filter fun el => el ≠ r) G
        ((List.nodup_range.filter _).filter _) (fun el hel => by
          rw [List.mem_filter] at hel
          exact ⟨((hmem el).1 hel.1).1, by simpa using hel.2⟩)
      refine pivot r hrn hr.1 _ f1 ?_ ?_
      · intro q _ x hx
        rw [f2, rest r hr.1 hrn x hx]
        split_ifs <;> simp
      · intro q hq
        rw [f2]
        by_cases hqr : q = r
        · subst hqr
          rw [if_neg (by simp)]
          simp [hr.2]
        · constructor
          · intro h
            exfalso
            by_cases hz : G q c = 0
            · rw [if_neg] at h
              · exact h hz
              · rw [List.mem_filter, hmem]; exact fun h' => h'.1.2 hz
            · rw [if_pos (by rw [List.mem_filter, hmem]; exact ⟨⟨hq, hz⟩, by simpa using hqr⟩), z2_ne hz, z2_ne hr.2] at h
              exact h (by decide)
          · intro h; exact absurd h hqr

/-- the elimination: every row either owns a column (it is the only row with a non-zero entry there) or vanishes on all columns -/
theorem elimLoop_spec (R cols : ℕ) (G₀ : ℕ → ℕ → ZMod 2) : ∀ (l done : List ℕ) (s : (ℕ → ℕ → ZMod 2) × List ℕ × ℕ), EInv R cols G₀ done s →
    RowOp ⟨R, cols, G₀⟩ ⟨R, cols, (elimLoop R l s).1⟩ ∧ ∀ r < R, (∃ c ∈ done ++ l, ∀ q < R, (elimLoop R l s).1 q c ≠ 0 ↔ q = r) ∨
      ∀ c ∈ done ++ l, (elimLoop R l s).1 r c = 0
  | [], done, s, h => by
    refine ⟨h.row, fun r hr => ?_⟩
    simp only [elimLoop, List.append_nil]
    by_cases hm : r ∈ s.2.1
    · exact .inl (h.pivot r hm)
    · exact .inr (h.rest r hr hm)
  | c :: l, done, s, h => by
    have h' := elimStep_inv h c
    simp only [elimLoop]
    by_cases hk : (elimStep R s c).2.2 = R
    · rw [if_pos hk]
      refine ⟨h'.row, fun r hr => .inl ?_⟩
      -- all rows are pivots
      have hall : r ∈ (elimStep R s c).2.1 := by
        have hsub : (elimStep R s c).2.1.toFinset ⊆ range R := fun x hx => mem_range.2 (h'.lt x (List.mem_toFinset.1 hx))
        have hcard : (range R).card ≤ (elimStep R s c).2.1.toFinset.card := by
          rw [List.toFinset_card_of_nodup h'.nd, ← h'.len, hk]; simp
        have := Finset.eq_of_subset_of_card_le hsub hcard
        rw [← List.mem_toFinset, this]; exact mem_range.2 hr
      obtain ⟨x, hx, hp⟩ := h'.pivot r hall
      exact ⟨x, by simp only [List.mem_append, List.mem_cons, List.mem_singleton] at hx ⊢; tauto, hp⟩
    · rw [if_neg hk]
      have := elimLoop_spec R cols G₀ l (done ++ [c]) _ h'
      simpa using this

end Taper
end QF
