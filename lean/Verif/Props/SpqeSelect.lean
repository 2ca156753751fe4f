import Verif.Props.SpqeResidual

/-!
C88: the selection of operators in SPQE.
-/
namespace QF

open SQOperator (DescSort)
open QubitOperator (SortOracle)
open SQOpPool

namespace Spqe

variable {A : PqeAlg} {d : List (ℕ × ℕ)} {k R : ℕ} {dets : List ℕ}

/-- the number of operators of rank 1, 2, …, `nel` among the pool operators `l` -/
def nbodyOf (nel k R : ℕ) (dets l : List ℕ) : List ℕ := (List.range nel).map fun i => l.countP fun m => decide ((holes (2 * k) R (dets.getD m 0)).length = i + 1)

theorem nbodyOf_perm {nel k R : ℕ} {dets l l' : List ℕ} (h : l.Perm l') : nbodyOf nel k R dets l = nbodyOf nel k R dets l' := by
  unfold nbodyOf
  apply List.map_congr_left
  intro i _
  exact h.countP_eq _

theorem excTerms_head (c a : List ℕ) (h : c.length = a.length) : ∃ t, pyIndex (excTerms c a) 0 = .ok t ∧ t.2.1.length = a.length := by
  unfold excTerms
  split
  · exact ⟨_, rfl, h⟩
  · exact ⟨_, rfl, rfl⟩

theorem countOp_ok (h : Sound A d k R dets) {nel m : ℕ} (hm : m < dets.length) (hn : (holes (2 * k) R dets[m]).length ≤ nel) (l : List ℕ) :
    countOp A (nbodyOf nel k R dets l) m = .ok (nbodyOf nel k R dets (m :: l)) := by
  obtain ⟨e1, e2, e3⟩ := h.excit (List.getElem_mem hm)
  obtain ⟨t, t1, t2⟩ := excTerms_head _ _ e1.rank
  have hr := e1.rank
  unfold countOp UccAlg.poolAt
  rw [h.poolGet hm]
  simp only [except_ok_bind, t1, t2]
  rw [if_neg (by omega)]
  have hl : (nbodyOf nel k R dets l).length = nel := by simp [nbodyOf]
  have hi : (holes (2 * k) R dets[m]).length - 1 < (nbodyOf nel k R dets l).length := by omega
  rw [pyIndex_ok (List.getElem?_eq_getElem hi), except_ok_bind]
  simp only [pure, Except.pure, Except.ok.injEq]
  apply List.ext_getElem
  · simp [nbodyOf]
  · intro i h1 h2
    rw [List.getElem_set]
    simp only [nbodyOf, List.getElem_map, List.getElem_range, List.countP_cons, List.getD_eq_getElem _ _ hm]
    by_cases hii : (holes (2 * k) R dets[m]).length - 1 = i
    · rw [if_pos hii, if_pos (by rw [decide_eq_true_iff]; omega), hii]
    · rw [if_neg hii, if_neg (by rw [decide_eq_true_iff]; omega), add_zero]

theorem insert_fold (A : PqeAlg) (l : List ℕ) : l.reverse.foldl insertOp A = { A with tops := l ++ A.tops, tamps := (l.map fun _ => 0) ++ A.tamps } := by
  induction l generalizing A with
  | nil => rfl
  | cons m l ih =>
    rw [List.reverse_cons, List.foldl_append, ih]
    rfl

/-- the candidates: the pool operators not in the ansatz -/
def cands (dets tops : List ℕ) : List ℕ := (List.range dets.length).filter fun m => m ∉ tops

theorem map_getD_range (dets : List ℕ) : (List.range dets.length).map (fun m => dets.getD m 0) = dets := by
  apply List.ext_getElem
  · simp
  · intro i h1 h2
    rw [List.getElem_map, List.getElem_range, List.getD_eq_getElem _ _ h2]

theorem pairLe_total : Std.Total pairLe := ⟨fun a b => by
  unfold pairLe
  rcases lt_trichotomy a.1 b.1 with h | h | h
  · exact .inl (.inl h)
  · rcases le_total a.2 b.2 with h' | h'
    · exact .inl (.inr ⟨h, h'⟩)
    · exact .inr (.inr ⟨h.symm, h'⟩)
  · exact .inr (.inl h)⟩

theorem pairLe_trans : IsTrans _ pairLe := ⟨fun a b c h1 h2 => by
  unfold pairLe at *
  rcases h1 with h1 | ⟨h1, h1'⟩ <;> rcases h2 with h2 | ⟨h2, h2'⟩
  · exact .inl (h1.trans h2)
  · exact .inl (h2 ▸ h1)
  · exact .inl (h1 ▸ h2)
  · exact .inr ⟨h1.trans h2, h1'.trans h2'⟩⟩

theorem perm_of_map {α β : Type} (f : α → β) (g : β → α) {l : List β} {c : List α} (h : l.Perm (c.map f)) (hg : ∀ x ∈ c, g (f x) = x) :
    l = (l.map g).map f ∧ (l.map g).Perm c := by
  constructor
  · rw [List.map_map]
    conv_lhs => rw [← List.map_id l]
    apply List.map_congr_left
    intro y hy
    obtain ⟨x, hx, rfl⟩ := List.mem_map.1 (h.mem_iff.1 hy)
    simp [hg x hx]
  · have := h.map g
    rw [List.map_map] at this
    have e : c.map (g ∘ f) = c := by
      conv_rhs => rw [← List.map_id c]
      exact List.map_congr_left fun x hx => hg x hx
    rwa [e] at this

/-- the sorted list of the squared coefficients: all candidates, in increasing order -/
theorem resSq_ok (h : Sound A d k R dets) (coeffs : List ℂ) (c : ℕ → ℂ) (hc : ∀ J, J < 2 ^ (2 * k) → coeffs[J]? = some (c J)) :
    ∃ ord : List ℕ, ord.Perm (cands dets A.tops) ∧ resSq A d coeffs = .ok (ord.map fun m => (‖c (dets.getD m 0)‖ ^ 2, dets.getD m 0)) ∧
      ord.Pairwise fun a b => ‖c (dets.getD a 0)‖ ^ 2 ≤ ‖c (dets.getD b 0)‖ ^ 2 := by
  have hused : A.tops.mapM (dictGet (toCoeff d)) = .ok (A.tops.map fun m => dets.getD m 0) := by
    apply mapM_ok
    intro m hm
    rw [h.coeffIdx (h.mem m hm), List.getD_eq_getElem _ _ (h.mem m hm)]
  have hfst : d.map Prod.fst = dets := by rw [h.dict]; simp
  have hfil : dets.filter (fun I => decide (I ∉ A.tops.map fun m => dets.getD m 0)) = (cands dets A.tops).map fun m => dets.getD m 0 := by
    conv_lhs => rw [← map_getD_range dets]
    rw [List.filter_map]
    congr 1
    unfold cands
    apply List.filter_congr
    intro m hm
    have hm := List.mem_range.1 hm
    simp only [Function.comp]
    rw [decide_eq_decide, map_getD_range, List.mem_map]
    constructor
    · intro hh hx; exact hh ⟨m, hx, rfl⟩
    · rintro hh ⟨m', hm', e⟩
      have hm'' := h.mem m' hm'
      rw [List.getD_eq_getElem _ _ hm, List.getD_eq_getElem _ _ hm''] at e
      rw [(List.Nodup.getElem_inj_iff h.nodup).1 e] at hm'
      exact hh hm'
  have hcand : ∀ m ∈ cands dets A.tops, m < dets.length := fun m hm => List.mem_range.1 (List.mem_filter.1 hm).1
  let f : ℕ → ℝ × ℕ := fun m => (‖c (dets.getD m 0)‖ ^ 2, dets.getD m 0)
  have hmap : ((cands dets A.tops).map fun m => dets.getD m 0).mapM (fun I => (do
      let z ← pyIndex coeffs I
      pure (((starRingEnd ℂ) z * z).re, I) : Except Exc (ℝ × ℕ))) = .ok ((cands dets A.tops).map f) := by
    rw [List.mapM_map]
    apply mapM_ok
    intro m hm
    have hlt := hcand m hm
    have hI := (h.target _ (List.getElem_mem hlt)).1
    simp only [Function.comp, f, List.getD_eq_getElem _ _ hlt]
    rw [pyIndex_ok (hc _ hI), except_ok_bind, ← Complex.normSq_eq_norm_sq, ← Complex.normSq_eq_conj_mul_self, Complex.ofReal_re]
    rfl
  have hperm := List.perm_insertionSort pairLe ((cands dets A.tops).map f)
  have hsort : (((cands dets A.tops).map f).insertionSort pairLe).Pairwise pairLe := by
    have := pairLe_total
    have := pairLe_trans
    exact List.pairwise_insertionSort _ _
  obtain ⟨e1, e2⟩ := perm_of_map f (fun p => dets.idxOf p.2) hperm (fun m hm => by
    simp only [f, List.getD_eq_getElem _ _ (hcand m hm)]
    exact h.nodup.idxOf_getElem m (hcand m hm))
  refine ⟨_, e2, ?_, ?_⟩
  · unfold resSq
    rw [hused, except_ok_bind, hfst, hfil, hmap, except_ok_bind]
    simp only [pure, Except.pure]
    exact congrArg Except.ok e1
  · rw [e1, List.pairwise_map] at hsort
    refine hsort.imp fun {a b} hab => ?_
    rcases hab with h | h
    · exact h.le
    · exact h.1.le

/-- the loop of the cumulative selection: the operators it takes are the tail of the sorted list that begins where the running sum passes the threshold -/
theorem sel_fold (O : Opts) (h : Sound A d k R dets) {nel : ℕ} (x : ℕ → ℝ) (hx : ∀ m, 0 ≤ x m) (ord : List ℕ)
    (hm : ∀ m ∈ ord, m < dets.length ∧ m ∉ A.tops ∧ (holes (2 * k) R (dets.getD m 0)).length ≤ nel) :
    ∀ s : Sel, s.nbody = nbodyOf nel k R dets (s.ops ++ A.tops) → ∃ pre post sum, ord = pre ++ post ∧
      (ord.map fun m => (x m, dets.getD m 0)).foldlM (selStep O A d) s = .ok { sum := sum, ops := s.ops ++ post, nbody := nbodyOf nel k R dets (s.ops ++ post ++ A.tops) } ∧
      (O.thresh * O.thresh < s.sum → pre = []) ∧ (pre ≠ [] → s.sum + (pre.map fun m => x m / (O.dt * O.dt)).sum ≤ O.thresh * O.thresh) ∧
      ∀ a, post.head? = some a → O.thresh * O.thresh < s.sum + (pre.map fun m => x m / (O.dt * O.dt)).sum + x a / (O.dt * O.dt) := by
  induction ord with
  | nil =>
    intro s hs
    exact ⟨[], [], s.sum, rfl, by rw [List.append_nil, ← hs]; rfl, fun _ => rfl, fun h => absurd rfl h, by simp⟩
  | cons m ord ih =>
    intro s hs
    obtain ⟨m1, m2, m3⟩ := hm m (by simp)
    have ih := ih fun m hm' => hm m (by simp [hm'])
    have hw : 0 ≤ x m / (O.dt * O.dt) := div_nonneg (hx m) (mul_self_nonneg _)
    rw [List.map_cons, List.foldlM_cons]
    by_cases hgt : O.thresh * O.thresh < s.sum + x m / (O.dt * O.dt)
    · have hstep : selStep O A d s (x m, dets.getD m 0) = .ok { sum := s.sum + x m / (O.dt * O.dt), ops := s.ops ++ [m], nbody := nbodyOf nel k R dets (s.ops ++ [m] ++ A.tops) } := by
        unfold selStep
        simp only
        rw [if_pos hgt, List.getD_eq_getElem _ _ m1, h.poolIdx m1, except_ok_bind, if_pos m2, hs, countOp_ok h m1 (by rw [List.getD_eq_getElem _ _ m1] at m3; exact m3), except_ok_bind]
        simp only [pure, Except.pure, Except.ok.injEq, Sel.mk.injEq, true_and]
        apply nbodyOf_perm
        rw [List.append_assoc, List.singleton_append]
        exact List.perm_middle.symm
      rw [hstep, except_ok_bind]
      obtain ⟨pre, post, sum, e1, e2, e3, e4, e5⟩ := ih { sum := s.sum + x m / (O.dt * O.dt), ops := s.ops ++ [m], nbody := nbodyOf nel k R dets (s.ops ++ [m] ++ A.tops) } rfl
      have hpre := e3 hgt
      subst hpre
      rw [List.nil_append] at e1
      subst e1
      refine ⟨[], m :: ord, sum, rfl, ?_, fun _ => rfl, fun h => absurd rfl h, ?_⟩
      · rw [e2]; simp
      · intro a ha
        simp only [List.head?_cons, Option.some.injEq] at ha
        subst ha
        simpa using hgt
    · have hstep : selStep O A d s (x m, dets.getD m 0) = .ok { s with sum := s.sum + x m / (O.dt * O.dt) } := by
        unfold selStep
        simp only
        rw [if_neg hgt]; rfl
      rw [hstep, except_ok_bind]
      obtain ⟨pre, post, sum, e1, e2, e3, e4, e5⟩ := ih { s with sum := s.sum + x m / (O.dt * O.dt) } hs
      refine ⟨m :: pre, post, sum, by rw [e1]; rfl, e2, fun hlt => absurd (lt_of_lt_of_le hlt (by linarith)) hgt, fun _ => ?_, fun a ha => ?_⟩
      · by_cases hp : pre = []
        · subst hp; simpa using not_lt.1 hgt
        · have := e4 hp
          simp only [List.map_cons, List.sum_cons] at this ⊢
          linarith
      · have := e5 a ha
        simp only [List.map_cons, List.sum_cons] at this ⊢
        linarith

end Spqe
end QF
