import Verif.Props.UccAnsatz
import Verif.Props.SaPool
import Verif.Props.TaperUnitary

/-!
C70 for spin-adapted pools: `ansatz_circuit` with `pool_type = "sa_SD"`, abc/ansatz.py:38-53.
-/
namespace QF

open SQOperator (DescSort jwTransform)
open QubitOperator (SortOracle)

/-- `w (τ - τ†)` as the pair of terms the ansatz splits off a spin-adapted operator -/
noncomputable def wTerms (w : ℝ) (c a : List ℕ) : SQOperator := [((w : ℂ), c, a), (-(w : ℂ), a, c)]

theorem wTerms_distinct {n : ℕ} {c a : List ℕ} (h : Excit n c a) (w : ℝ) : (wTerms w c a).Distinct := by
  intro t ht
  simp only [wTerms, List.mem_cons, List.not_mem_nil, or_false] at ht
  rcases ht with rfl | rfl
  · exact ⟨sdesc_nodup h.desc_c, sdesc_nodup h.desc_a⟩
  · exact ⟨sdesc_nodup h.desc_a, sdesc_nodup h.desc_c⟩

theorem wTerms_simplify (o : DescSort) {n : ℕ} {c a : List ℕ} (h : Excit n c a) {w : ℝ} (hw : 1e-12 < |w|) :
    SQOperator.simplify o (wTerms w c a) = .ok ((excTerms c a).map fun x => (x.1 * (w : ℂ), x.2)) := by
  have hs := simplify_excTerms o h
  refine simplify_target o _ _ (wTerms_distinct h w) ?_ ?_ ?_ ?_
  · intro t ht
    obtain ⟨x, hx, rfl⟩ := List.mem_map.1 ht
    rcases exc_mem hx with ⟨_, e⟩ | ⟨_, e⟩ <;> rw [e]
    · exact ⟨h.desc_c, h.desc_a⟩
    · exact ⟨h.desc_a, h.desc_c⟩
  · unfold excTerms
    split
    · rename_i hk; simpa using hk
    · rename_i hk
      simp only [List.map_cons, List.map_nil, List.pairwise_cons, List.mem_singleton, List.not_mem_nil, false_imp_iff, implies_true, List.Pairwise.nil, and_true, forall_eq]
      by_contra hh
      exact absurd (congrArg Prod.fst (SQOperator.klt_eq hk hh)) h.ne
  · intro t ht
    obtain ⟨x, hx, rfl⟩ := List.mem_map.1 ht
    rcases exc_mem hx with ⟨e, _⟩ | ⟨e, _⟩ <;> rw [e] <;> simpa using hw
  · unfold excTerms wTerms
    split <;> simp only [SQOperator.op, List.map_cons, List.map_nil, List.sum_cons, List.sum_nil, one_mul, add_zero]
    · simp
    · rw [add_comm]; simp

/-- the Jordan-Wigner transform of such a pair -/
theorem jw_wexc (o : DescSort) {n : ℕ} {c a : List ℕ} (h : Excit n c a) (hr : c.length ≤ 19) (q : Bool) {w : ℝ} (hw : 1e-12 * 4 ^ c.length < |w|) :
    ∃ Q R, jwTransform o (wTerms w c a) q = .ok (Q, R) ∧ Q.Normal ∧ Q.opLR = (w : ℂ) • kappa q c a ∧
      ∀ t ∈ Q, 1e-12 < ‖t.1‖ ∧ ∃ l, ‖l‖ * 2 ^ (c ++ a).toFinset.card = 2 ∧ l ≠ 0 ∧ t.1 = l * (w : ℂ) := by
  classical
  have h1 : (1 : ℝ) ≤ 4 ^ c.length := one_le_pow₀ (by norm_num)
  have hw' : 1e-12 < |w| := by nlinarith
  have e1 := wTerms_simplify o h hw'
  obtain ⟨Q1, f1, nQ1, hQ1, hl1⟩ := jw_exc o h hr q
  let R : SQOperator := (excTerms c a).map fun x => (x.1 * (w : ℂ), x.2)
  have hR : ∀ t ∈ R, t.2.1.Nodup ∧ t.2.2.Nodup ∧ t.2.1.length + t.2.2.length ≤ 39 := by
    intro t ht
    obtain ⟨x, hx, rfl⟩ := List.mem_map.1 ht
    have := h.rank
    rcases exc_mem hx with ⟨_, e⟩ | ⟨_, e⟩ <;> rw [e]
    · exact ⟨sdesc_nodup h.desc_c, sdesc_nodup h.desc_a, by simp only; omega⟩
    · exact ⟨sdesc_nodup h.desc_a, sdesc_nodup h.desc_c, by simp only; omega⟩
  obtain ⟨qo, e2, o2, p2, _⟩ := jw_fold q R [] hR (by simp)
  have oq : qo.opLR = (w : ℂ) • kappa q c a := by
    have ek : ((excTerms c a).map fun t => t.1 • ladString q t.2).sum = kappa q c a := by
      cases q
      · rw [← exc_kappa h]; rfl
      · rw [← exc_qkappa]; rfl
    rw [o2, ← ek, List.smul_sum]
    simp only [R, List.map_map, Function.comp_def, QubitOperator.opLR, List.map_nil, List.sum_nil, zero_add]
    congr 1
    refine List.map_congr_left fun x _ => ?_
    rw [smul_smul, mul_comm]
  let B := Q1.multCoeffs (w : ℂ)
  have nB : B.Normal := normal_multCoeffs nQ1 _
  have oB : B.opLR = (w : ℂ) • kappa q c a := by rw [opLR_multCoeffs, hQ1]
  have hB : ∀ t ∈ B, ∃ l, ‖l‖ * 2 ^ (c ++ a).toFinset.card = 2 ∧ l ≠ 0 ∧ t.1 = l * (w : ℂ) ∧ 1e-12 < ‖t.1‖ := by
    intro t ht
    obtain ⟨u, hu, rfl⟩ := List.mem_map.1 ht
    have hu0 := ne_zero_of_gt (hl1 u hu).1
    refine ⟨u.1, exc_flat h nQ1 hQ1 (fun t ht => ne_zero_of_gt (hl1 t ht).1) u hu, hu0, rfl, ?_⟩
    have hb := lat_bound (hl1 u hu).2 hu0
    have e4 : (2 : ℝ) ^ (2 * c.length) = 4 ^ c.length := by rw [pow_mul]; norm_num
    rw [e4] at hb
    simp only [norm_mul, Complex.norm_real, Real.norm_eq_abs]
    have h4 : (0 : ℝ) < 4 ^ c.length := by positivity
    nlinarith [norm_nonneg u.1, abs_nonneg w]
  obtain ⟨F, _, nF, oF, _, eF⟩ := simplify_full p2
  have hc := coefN_determined nF.canonical nB.canonical (by rw [oF, oq, oB])
  have hF : ∀ t ∈ F, t.1 = 0 ∨ t ∈ B := by
    intro t ht
    have e1 := coefN_mem (Normal.nodup nF) ht
    by_cases hs : t.2 ∈ B.map Prod.snd
    · right
      obtain ⟨u, hu, e⟩ := List.mem_map.1 hs
      have e2 := coefN_mem (Normal.nodup nB) hu
      have : u = t := Prod.ext (by rw [← e2, ← e1, e, hc]) e
      rw [← this]; exact hu
    · left
      have := coefN_not_mem hs
      rw [← hc, e1] at this
      exact this
  refine ⟨_, R, ?_, Normal.filter nF fun t => decide (‖t.1‖ > 1e-12), ?_, ?_⟩
  · unfold jwTransform
    rw [e1, except_ok_bind]
    erw [e2]
    rw [except_ok_bind, eF]
    rfl
  · rw [← oq, ← oF]
    conv_rhs => rw [filter_split F (fun t => decide (‖t.1‖ > 1e-12))]
    symm
    have hz : (QubitOperator.opLR (F.filter (fun t => !decide (‖t.1‖ > 1e-12)))) = 0 := by
      unfold QubitOperator.opLR
      apply List.sum_eq_zero
      intro x hx
      obtain ⟨t, ht, rfl⟩ := List.mem_map.1 hx
      obtain ⟨h1, h2⟩ := List.mem_filter.1 ht
      rcases hF t h1 with h | h
      · rw [h, zero_smul]
      · obtain ⟨_, _, _, _, h⟩ := hB t h
        simp only [Bool.not_eq_true', decide_eq_false_iff_not, not_lt, gt_iff_lt] at h2
        exact absurd h (not_lt.2 h2)
    rw [hz, add_zero]
  · intro t ht
    obtain ⟨h1, h2⟩ := List.mem_filter.1 ht
    have h2 : 1e-12 < ‖t.1‖ := by simpa using h2
    refine ⟨h2, ?_⟩
    rcases hF t h1 with h | h
    · exact absurd h (ne_zero_of_gt h2)
    · obtain ⟨l, a1, a2, a3, _⟩ := hB t h
      exact ⟨l, a1, a2, a3⟩

theorem wexc_group {o : DescSort} {n : ℕ} {c a : List ℕ} (h : Excit n c a) (hr : c.length ≤ 19) {q : Bool} {w : ℝ} (hw : 1e-12 * 4 ^ c.length < |w|) {t : ℝ}
    {B : QubitOperator} (hB : GroupOf o q ((t : ℂ), wTerms w c a) B) :
    ExpGroup n B ∧ B.opLR = (usedAmp (c, a) (t * w) : ℂ) • kappa q c a := by
  obtain ⟨Q, R, D, e, hop, hD, hnd, hBc, hp⟩ := hB
  obtain ⟨Q', R', e', nQ, hQ, hl⟩ := jw_wexc o h hr q hw
  simp only at e hop hp
  rw [e] at e'; cases e'
  have hs : RealSkew (lmask (caList c a)) Q.opLR := by
    rw [hQ]
    obtain ⟨k, h1, h2⟩ := kappa_skew q c a
    refine ⟨fun I => w * k I, fun ψ I => ?_, fun I => ?_⟩
    · rw [LinearMap.smul_apply, Pi.smul_apply, h1, smul_eq_mul]; push_cast; ring
    · show w * k _ = -(w * k I); rw [h2]; ring
  have h0 : ∀ t ∈ Q, t.1 ≠ 0 := fun t ht => ne_zero_of_gt (hl t ht).1
  have h1 := skew_strings nQ.canonical (Normal.nodup nQ) hs
  have h2 := support_strings nQ.canonical (Normal.nodup nQ) (n := n) (by
    rw [hQ]; exact (acts_kappa q h.bound_c h.bound_a).smul _)
  have hmem : ∀ x ∈ B, ∃ u ∈ Q, x = (u.1 * (t : ℂ), u.2) := by
    intro x hx
    have := hp.mem_iff.1 (List.mem_append_left D hx)
    obtain ⟨u, hu, rfl⟩ := List.mem_map.1 this
    exact ⟨u, hu, rfl⟩
  refine ⟨⟨fun x hx => (hBc x hx).1, ?_, ?_, ?_, ?_⟩, ?_⟩
  · intro x hx; obtain ⟨u, hu, rfl⟩ := hmem x hx; exact h2 u hu (h0 u hu)
  · intro x hx; obtain ⟨u, hu, rfl⟩ := hmem x hx
    simp [(h1 u hu (h0 u hu)).1]
  · intro x hx; obtain ⟨u, hu, rfl⟩ := hmem x hx; exact odd_ne_nil (h1 u hu (h0 u hu)).2.2
  · intro x hx y hy
    obtain ⟨u, hu, rfl⟩ := hmem x hx
    obtain ⟨v, hv, rfl⟩ := hmem y hy
    simp only
    rw [(nQ.canonical u hu).op_eq, (nQ.canonical v hv).op_eq]
    obtain ⟨_, a1, a2⟩ := h1 u hu (h0 u hu)
    obtain ⟨_, b1, b2⟩ := h1 v hv (h0 v hv)
    exact odd_commute (nQ.canonical u hu) (nQ.canonical v hv) a1 b1 a2 b2
  · rw [hQ, smul_smul] at hop
    have h4 : (0 : ℝ) < 2 ^ (c ++ a).toFinset.card := by positivity
    by_cases hres : AmpResolved (c, a) (t * w)
    · have hz : ∀ x ∈ D, x.1 = 0 := by
        intro x hx
        have := hp.mem_iff.1 (List.mem_append_right B hx)
        obtain ⟨u, hu, rfl⟩ := List.mem_map.1 this
        obtain ⟨l, hb, l2, l3⟩ := (hl u hu).2
        rcases hres with hres | hres
        · rcases mul_eq_zero.1 hres with r | r
          · simp [r]
          · simp [l3, r]
        · exfalso
          have hsm := (hD.2 _ hx).2
          simp only [l3, norm_mul, Complex.norm_real, Real.norm_eq_abs] at hsm
          rw [abs_mul] at hres
          simp only at hres
          have : ‖l‖ * (|t| * |w|) ≤ 1e-12 := by nlinarith
          nlinarith [norm_nonneg l, mul_nonneg (abs_nonneg t) (abs_nonneg w)]
      have hD0 : QubitOperator.opLR D = 0 := by
        unfold QubitOperator.opLR
        refine List.sum_eq_zero fun y hy => ?_
        obtain ⟨x, hx, rfl⟩ := List.mem_map.1 hy
        rw [hz x hx, zero_smul]
      unfold usedAmp
      rw [if_pos hres]
      rw [hD0, add_zero] at hop
      rw [← hop]; push_cast; rfl
    · have hB0 : B = [] := by
        rw [List.eq_nil_iff_forall_not_mem]
        intro x hx
        have hbig := (hBc x hx).2
        obtain ⟨u, hu, rfl⟩ := hmem x hx
        obtain ⟨l, hb, l2, l3⟩ := (hl u hu).2
        simp only [l3, norm_mul, Complex.norm_real, Real.norm_eq_abs] at hbig
        unfold AmpResolved at hres
        rw [not_or, not_lt] at hres
        have h5 := hres.2
        simp only [abs_mul] at h5
        have : 1e-12 < ‖l‖ * (|t| * |w|) := by nlinarith
        nlinarith [norm_nonneg l, mul_nonneg (abs_nonneg t) (abs_nonneg w)]
      unfold usedAmp
      rw [if_neg hres, hB0]
      simp [QubitOperator.opLR]

/-- a spin-adapted pool element: the terms `w τ` of its first half, and in the second half their partners `-w τ†`; the weights are not tiny -/
structure SaElem (n : ℕ) (ys : List (ℝ × List ℕ × List ℕ)) (e : SQOperator) : Prop where
  half : ∃ rest, e = (ys.map fun y => ((y.1 : ℂ), y.2.1, y.2.2)) ++ rest ∧ rest.Perm (ys.map fun y => (-(y.1 : ℂ), y.2.2, y.2.1))
  exc : ∀ y ∈ ys, Excit n y.2.1 y.2.2 ∧ y.2.1.length ≤ 19 ∧ 1e-12 * 4 ^ y.2.1.length < |y.1|

/-- a spin-adapted pool element as `fill_pool` makes it: sorted, no index in both lists, and all weights multiples of one that is not tiny -/
structure SaGood (n : ℕ) (ys : List (ℝ × List ℕ × List ℕ)) (e : SQOperator) : Prop extends SaElem n ys e where
  sorted : e.Pairwise fun a b => SQOperator.klt a.2 b.2 = true
  disjoint : ∀ y ∈ ys, (y.2.1 ++ y.2.2).Nodup
  grid : ∃ (w : ℝ) (r : ℕ), 1e-12 * 4 ^ r < |w| ∧ ∀ y ∈ ys, y.2.1.length ≤ r ∧ ∃ k : ℤ, y.1 = k * w

/-- such an element is `Σ w (τ - τ†)` -/
theorem SaElem.op {n : ℕ} {ys : List (ℝ × List ℕ × List ℕ)} {e : SQOperator} (h : SaElem n ys e) :
    SQOperator.op e = (ys.map fun y => (y.1 : ℂ) • kappa false y.2.1 y.2.2).sum := by
  obtain ⟨rest, rfl, hp⟩ := h.half
  have h1 : SQOperator.op rest = SQOperator.op (ys.map fun y => (-(y.1 : ℂ), y.2.2, y.2.1)) := by
    unfold SQOperator.op
    exact (hp.map _).sum_eq
  have h2 : ∀ A B : SQOperator, SQOperator.op (A ++ B) = SQOperator.op A + SQOperator.op B := by
    intro A B; unfold SQOperator.op; rw [List.map_append, List.sum_append]
  rw [h2, h1]
  have hx := h.exc
  clear hp h1 h
  induction ys with
  | nil => simp [SQOperator.op]
  | cons y ys ih =>
    have ih := ih fun x hx' => hx x (by simp [hx'])
    obtain ⟨he, _⟩ := hx y (by simp)
    have hk : kappa false y.2.1 y.2.2 = fermiString y.2.1 y.2.2 - fermiString y.2.2 y.2.1 := by
      rw [kappa, if_neg (by decide), fermiString_reverse (sdesc_nodup he.desc_a) (sdesc_nodup he.desc_c) he.rank.symm]
    rw [List.map_cons, List.map_cons, List.map_cons, List.sum_cons, ← ih, hk]
    simp only [SQOperator.op, List.map_cons, List.sum_cons]
    module

/-- the pool operators picked by `tops` are spin-adapted elements with the given pieces -/
def UccAlg.SelectsSa (A : UccAlg) (yss : List (List (ℝ × List ℕ × List ℕ))) : Prop :=
  List.Forall₂ (fun i ys => ∃ z e, A.pool[i]? = some (z, e) ∧ SaElem A.nqb ys e) A.tops yss

/-- the factors of the ansatz: for every operator its pieces in the order of the pool element, with amplitude times weight -/
noncomputable def saFactors (ts : List ℝ) (yss : List (List (ℝ × List ℕ × List ℕ))) : List (ℝ × List ℕ × List ℕ) :=
  (List.zip ts yss).flatMap fun p => p.2.map fun y => (p.1 * y.1, y.2)

theorem saSplit_eq {n : ℕ} {ys : List (ℝ × List ℕ × List ℕ)} {e : SQOperator} (h : SaElem n ys e) : UccAlg.saSplit e = ys.map fun y => wTerms y.1 y.2.1 y.2.2 := by
  obtain ⟨rest, rfl, hp⟩ := h.half
  have hl := hp.length_eq
  rw [List.length_map] at hl
  unfold UccAlg.saSplit
  rw [List.length_append, List.length_map, hl, show (ys.length + ys.length) / 2 = ys.length by omega, List.take_left' (by simp), List.map_map]
  rfl

theorem saTempPool {A : UccAlg} {yss : List (List (ℝ × List ℕ × List ℕ))} (h : A.SelectsSa yss) (hs : A.saSD = true) (ts : List ℝ) :
    A.tempPool ts = .ok ((List.zip ts yss).flatMap fun p => p.2.map fun y => ((p.1 : ℂ), wTerms y.1 y.2.1 y.2.2)) := by
  unfold UccAlg.tempPool UccAlg.SelectsSa at *
  have key : ∀ (is : List ℕ) (yss : List (List (ℝ × List ℕ × List ℕ))) (ts : List ℝ) (acc : List (ℂ × SQOperator)),
      List.Forall₂ (fun i ys => ∃ z e, A.pool[i]? = some (z, e) ∧ SaElem A.nqb ys e) is yss →
      (List.zip ts is).foldlM (fun l p => (do
        let e ← A.tempElems p
        pure (l ++ e) : Except Exc (List (ℂ × SQOperator)))) acc =
        .ok (acc ++ (List.zip ts yss).flatMap fun p => p.2.map fun y => ((p.1 : ℂ), wTerms y.1 y.2.1 y.2.2)) := by
    intro is yss ts acc h
    induction h generalizing ts acc with
    | nil => simp [pure, Except.pure]
    | @cons i ys is yss hx h ih =>
      cases ts with
      | nil => simp [pure, Except.pure]
      | cons t ts =>
        obtain ⟨z, e, e0, he⟩ := hx
        have e1 : A.tempElems (t, i) = .ok (ys.map fun y => ((t : ℂ), wTerms y.1 y.2.1 y.2.2)) := by
          unfold UccAlg.tempElems UccAlg.poolAt
          simp only [e0, except_ok_bind, hs, if_true, pure, Except.pure, saSplit_eq he, List.map_map, Function.comp_def]
        rw [List.zip_cons_cons, List.foldlM_cons, e1]
        simp only [except_ok_bind, pure, Except.pure] at ih ⊢
        rw [ih, List.zip_cons_cons, List.flatMap_cons, List.append_assoc]
  rw [key _ _ ts [] h, List.nil_append]

/-- C70, spin-adapted pools: the circuit is `N` times the ordered product of the factors `exp(t_μ w κ / N)`, one for every piece `w κ` of every
operator picked; a product `t_μ w` so small that the Pauli terms are at most 1e-12 counts as zero.  (The pieces of one operator need not commute, so
this is a further Trotter splitting.) -/
theorem C70_sa_SD (o : DescSort) (so : SortOracle) (A : UccAlg) (yss : List (List (ℝ × List ℕ × List ℕ))) (h : A.SelectsSa yss) (hs : A.saSD = true)
    (hc : A.compact = false) (hN : 1 ≤ A.trotterNumber) (ts : List ℝ) :
    ∃ C Ws, A.ansatzCircuit o so (some ts) = .ok C ∧ List.Forall₂ (AnsatzFactor A.qubitExc A.trotterNumber) (saFactors ts yss) Ws ∧
      C.op = applyInOrder Ws ^ A.trotterNumber.toNat ∧ (∀ g ∈ C, ApiGate g ∧ ExactGate g) ∧ C.Fits A.nqb := by
  have hx : ∀ p ∈ List.zip ts yss, ∀ y ∈ p.2, Excit A.nqb y.2.1 y.2.2 ∧ y.2.1.length ≤ 19 ∧ 1e-12 * 4 ^ y.2.1.length < |y.1| := by
    intro p hp
    have hp := (List.of_mem_zip hp).2
    obtain ⟨i, _, z, e, _, he⟩ := forall2_mem_right h hp
    exact he.exc
  -- all pieces with their amplitudes
  let L : List (ℝ × ℝ × List ℕ × List ℕ) := (List.zip ts yss).flatMap fun p => p.2.map fun y => (p.1, y)
  have hL : ∀ u ∈ L, Excit A.nqb u.2.2.1 u.2.2.2 ∧ u.2.2.1.length ≤ 19 ∧ 1e-12 * 4 ^ u.2.2.1.length < |u.2.1| := by
    intro u hu
    obtain ⟨p, hp, hu⟩ := List.mem_flatMap.1 hu
    obtain ⟨y, hy, rfl⟩ := List.mem_map.1 hu
    exact hx p hp y hy
  have eT : ((List.zip ts yss).flatMap fun p => p.2.map fun y => ((p.1 : ℂ), wTerms y.1 y.2.1 y.2.2)) = L.map fun u => ((u.1 : ℂ), wTerms u.2.1 u.2.2.1 u.2.2.2) := by
    simp only [L, List.map_flatMap, List.map_map, Function.comp_def]
  have eF : saFactors ts yss = L.map fun u => (u.1 * u.2.1, u.2.2) := by
    simp only [L, saFactors, List.map_flatMap, List.map_map, Function.comp_def]
  obtain ⟨Bs, e1, hB⟩ := C68_commuting_grp_lex o so { terms := L.map fun u => ((u.1 : ℂ), wTerms u.2.1 u.2.2.1 u.2.2.2) } true A.qubitExc (by
    intro t ht
    obtain ⟨u, hu, rfl⟩ := List.mem_map.1 ht
    obtain ⟨h, hr, _⟩ := hL u hu
    refine ⟨wTerms_distinct h _, fun x hx => ?_⟩
    have := h.rank
    simp only [wTerms, List.mem_cons, List.not_mem_nil, or_false] at hx
    rcases hx with rfl | rfl <;> simp only <;> omega)
  replace hB := List.forall₂_map_left_iff.1 hB
  have hG : List.Forall₂ (fun (u : ℝ × ℝ × List ℕ × List ℕ) (B : QubitOperator) => ExpGroup A.nqb B ∧
      B.opLR = (usedAmp u.2.2 (u.1 * u.2.1) : ℂ) • kappa A.qubitExc u.2.2.1 u.2.2.2) L Bs := by
    have : List.Forall₂ (fun (u : ℝ × ℝ × List ℕ × List ℕ) B => u ∈ L ∧ GroupOf o A.qubitExc ((u.1 : ℂ), wTerms u.2.1 u.2.2.1 u.2.2.2) B) L Bs := by
      rw [List.forall₂_and_left]; exact ⟨fun p hp => hp, hB⟩
    refine this.imp fun u B ⟨hu, hg⟩ => ?_
    obtain ⟨h, hr, hw⟩ := hL u hu
    exact wexc_group h hr hw hg
  have hE : ∀ B ∈ Bs, ExpGroup A.nqb B := by
    intro B hB
    obtain ⟨u, _, h, _⟩ := forall2_mem_right hG hB
    exact h
  have hall : ∀ t ∈ Bs.flatten, ∃ B ∈ Bs, t ∈ B := fun t ht => List.mem_flatten.1 ht
  obtain ⟨C, ph, Us, h1, h2, h3, h4⟩ := trotterize_fits A.nqb Bs.flatten 1 A.trotterNumber 1 le_rfl (by omega)
    (fun t ht => by obtain ⟨B, hB, ht⟩ := hall t ht; exact canonical_trotter ((hE B hB).can t ht))
    (fun t ht => by obtain ⟨B, hB, ht⟩ := hall t ht; exact (hE B hB).tgt t ht)
    (fun t ht => by obtain ⟨B, hB, ht⟩ := hall t ht; rw [one_mul]; exact (hE B hB).re t ht)
  have hph : ph = 1 := trotterize_phase (fun t ht => by obtain ⟨B, hB, ht⟩ := hall t ht; exact (hE B hB).ne t ht) h1
  subst hph
  obtain ⟨Ws, h5, h6⟩ := groups_exp hE _ h2
  refine ⟨C, Ws, ?_, ?_, ?_, fun g hg => (h4 g hg).1, fun g hg => (h4 g hg).2⟩
  · unfold UccAlg.ansatzCircuit UccAlg.ansatzWith
    rw [Option.getD_some, saTempPool h hs, eT]
    simp only [except_ok_bind, hc, Bool.false_eq_true, if_false, e1]
    rw [h1]
    simp [except_ok_bind, pure, Except.pure]
  · rw [eF]
    refine List.forall₂_map_left_iff.2 ?_
    clear h2 h3 h6 hE hB e1 h1 hall h4 eF eT
    clear hL
    revert hG
    generalize L = l
    intro hG
    induction h5 generalizing l with
    | nil => cases hG; exact .nil
    | cons hW _ ih =>
      cases hG with
      | cons hp hG =>
        refine .cons ?_ (ih _ hG)
        unfold AnsatzFactor
        simp only
        rw [← hp.2]
        exact hW
  · rw [← h6, ← h3, one_smul]

/-! ### the sa_SD pool has this shape -/

/-- the adjoint of a term, as written in the pool -/
noncomputable def dagOp (A : SQOperator) : Op := (A.map fun t => (starRingEnd ℂ) t.1 • fermiString t.2.2.reverse t.2.1.reverse).sum

theorem dagOp_adj {n : ℕ} (A : SQOperator) (h : ∀ t ∈ A, (∀ p ∈ t.2.1, p < n) ∧ ∀ p ∈ t.2.2, p < n) : IsAdj n (SQOperator.op A) (dagOp A) := by
  induction A with
  | nil => intro φ ψ; simp [SQOperator.op, dagOp, inner]
  | cons t A ih =>
    have h1 := ih fun x hx => h x (by simp [hx])
    have h2 := (IsAdj.fermiString (h t (by simp)).1 (h t (by simp)).2).smul t.1
    have := h2.addOps h1
    simpa only [SQOperator.op, dagOp, List.map_cons, List.sum_cons] using this

theorem dagOp_determined {n : ℕ} {A B : SQOperator} (hA : ∀ t ∈ A, (∀ p ∈ t.2.1, p < n) ∧ ∀ p ∈ t.2.2, p < n)
    (hB : ∀ t ∈ B, (∀ p ∈ t.2.1, p < n) ∧ ∀ p ∈ t.2.2, p < n) (h : SQOperator.op A = SQOperator.op B) : dagOp A = dagOp B := by
  refine Op.ext' fun φ I => ?_
  obtain ⟨N, hN⟩ : ∃ N, n ≤ N ∧ I < 2 ^ N := ⟨max n I, le_max_left _ _, lt_of_lt_of_le Nat.lt_two_pow_self (Nat.pow_le_pow_right (by norm_num) (le_max_right _ _))⟩
  have up : ∀ {C : SQOperator}, (∀ t ∈ C, (∀ p ∈ t.2.1, p < n) ∧ ∀ p ∈ t.2.2, p < n) → ∀ t ∈ C, (∀ p ∈ t.2.1, p < N) ∧ ∀ p ∈ t.2.2, p < N :=
    fun hC t ht => ⟨fun p hp => lt_of_lt_of_le ((hC t ht).1 p hp) hN.1, fun p hp => lt_of_lt_of_le ((hC t ht).2 p hp) hN.1⟩
  have a := dagOp_adj A (up hA) φ (Pi.single I 1)
  have b := dagOp_adj B (up hB) φ (Pi.single I 1)
  rw [h, b] at a
  have hs : ∀ χ : St, inner N χ (Pi.single I 1) = (starRingEnd ℂ) (χ I) := by
    intro χ
    unfold inner
    rw [Finset.sum_eq_single I]
    · simp
    · intro J _ hJ; rw [Pi.single_eq_of_ne hJ, mul_zero]
    · intro hI; exact absurd (Finset.mem_range.2 hN.2) hI
  rw [hs, hs] at a
  exact (RingHom.injective _ a).symm

theorem simplify_mul (o : DescSort) {A R : SQOperator} (hR : SQOperator.simplify o A = .ok R) {w : ℝ} (hz : ∀ t ∈ A, SQOpPool.Mul w t.1) :
    (∀ t ∈ R, SQOpPool.Mul w t.1 ∧ ‖t.1‖ ≤ (A.map fun x => ‖x.1‖).sum) ∧ R.length ≤ A.length := by
  classical
  obtain ⟨A', e, h⟩ := SQOperator.canonicalOrder_ok o A
  rw [simplify_eq o A A' e] at hR; cases hR
  have hA' : ∀ t ∈ A', SQOpPool.Mul w t.1 := by
    intro t ht
    obtain ⟨x, hx, hs⟩ := forall2_mem_right h ht
    rcases hs.coef with e | e
    · rw [e]; exact hz x hx
    · rw [e]; exact (hz x hx).neg
  have hnorm : (A'.map fun x => ‖x.1‖).sum = (A.map fun x => ‖x.1‖).sum := by
    clear hA' hz e
    induction h with
    | nil => rfl
    | cons hs _ ih =>
      rw [List.map_cons, List.map_cons, List.sum_cons, List.sum_cons, ih]
      rcases hs.coef with e | e <;> rw [e]
      rw [norm_neg]
  have hlen : A'.length = A.length := h.length_eq.symm
  have hcf : ∀ s, SQOpPool.Mul w (coefS A' s) ∧ ‖coefS A' s‖ ≤ (A'.map fun x => ‖x.1‖).sum := by
    intro s
    unfold coefS
    clear h e hnorm hlen
    induction A' with
    | nil => exact ⟨⟨0, by simp⟩, by simp⟩
    | cons t A ih =>
      obtain ⟨i1, i2⟩ := ih (fun t ht => hA' t (by simp [ht]))
      rw [List.map_cons, List.sum_cons, List.map_cons, List.sum_cons]
      constructor
      · apply SQOpPool.Mul.add _ i1
        split_ifs
        · simpa using hA' t (by simp)
        · exact ⟨0, by simp⟩
      · refine (norm_add_le _ _).trans (add_le_add ?_ i2)
        split_ifs <;> simp
  refine ⟨fun t ht => ?_, ?_⟩
  · obtain ⟨e, he, rfl⟩ := List.mem_map.1 ht
    have := (List.mem_filter.1 he).1
    simp only
    rw [buildMap_value this, ← hnorm]
    exact hcf _
  · rw [List.length_map, ← hlen]
    refine (List.length_filter_le _ _).trans ?_
    have h1 := buildMap_nodup A'
    have h2 := (SQOperator.buildMap_facts A').2.1
    have h3 : ((SQOperator.buildMap A').map Prod.fst).Subperm (A'.map Prod.snd) := by
      rw [List.subperm_ext_iff]
      intro x hx
      rw [List.count_eq_one_of_mem h1 hx]
      exact List.count_pos_iff.2 (by rw [h2] at hx; exact hx)
    simpa using h3.length_le

/-- the adjoint partner of a term -/
def adjTerm (t : SQTerm) : SQTerm := (-t.1, t.2.2.reverse, t.2.1.reverse)

/-- the terms of a particle-hole operator: ladder operators below `m` on one side and from `m` to `n` on the other -/
def PHTerm (m n : ℕ) (t : SQTerm) : Prop := t.2.1.length = t.2.2.length ∧ 1 ≤ t.2.1.length ∧ t.2.1.length ≤ 2 ∧
  (((∀ p ∈ t.2.1, p < m) ∧ ∀ p ∈ t.2.2, m ≤ p ∧ p < n) ∨ ((∀ p ∈ t.2.1, m ≤ p ∧ p < n) ∧ ∀ p ∈ t.2.2, p < m))

theorem sorted_split {α : Type} (p : α → Bool) : ∀ l : List α, (l.Pairwise fun x y => p y = true → p x = true) → l = l.filter p ++ l.filter fun x => !p x
  | [], _ => rfl
  | x :: l, h => by
    rw [List.pairwise_cons] at h
    have ih := sorted_split p l h.2
    by_cases hx : p x = true
    · rw [List.filter_cons_of_pos hx, List.filter_cons_of_neg (by simp [hx]), List.cons_append, ← ih]
    · have : l.filter p = [] := List.filter_eq_nil_iff.2 fun y hy hp => hx (h.1 y hy hp)
      rw [List.filter_cons_of_neg hx, List.filter_cons_of_pos (by simp [hx]), this, List.nil_append]
      rw [this, List.nil_append] at ih
      rw [← ih]

theorem saElem_of (o : DescSort) {A R : SQOperator} (hR : SQOperator.simplify o A = .ok R) {m n : ℕ} (hmn : m ≤ n) {w : ℝ} (hw : 1e-12 < |w|)
    (hd : A.Distinct) (hz : ∀ t ∈ A, SQOpPool.Mul w t.1) (hsym : (A.map adjTerm).Perm A) (hsh : ∀ t ∈ A, PHTerm m n t) {r : ℝ} (hr : 1.6e-11 < r * |w|) :
    ∃ ys, SaGood n ys (R.multCoeffs (r : ℂ)) := by
  classical
  obtain ⟨R', D, eR, _, f1, _, f3, f4, _⟩ := C35_simplify o A
  rw [hR] at eR; cases eR
  have hop := SQOpPool.simplify_scaled o A R hR hw hz
  obtain ⟨hm, _⟩ := simplify_mul o hR hz
  have hdesc : ∀ t ∈ R, SDesc t.2 := by
    intro t ht
    obtain ⟨⟨d1, d2⟩, u, hu, p1, p2⟩ := f1 t (by simp [ht])
    have st : ∀ {l : List ℕ}, (l.Pairwise fun p q => q ≤ p) → l.Nodup → l.Pairwise fun p q => q < p := by
      intro l h1 h2
      exact (h1.and h2).imp fun h => lt_of_le_of_ne h.1 (Ne.symm h.2)
    exact ⟨st d1 (p1.nodup_iff.2 (hd u hu).1), st d2 (p2.nodup_iff.2 (hd u hu).2)⟩
  have hph : ∀ t ∈ R, PHTerm m n t := by
    intro t ht
    obtain ⟨_, u, hu, p1, p2⟩ := f1 t (by simp [ht])
    obtain ⟨a1, a2, a3, a4⟩ := hsh u hu
    refine ⟨by rw [p1.length_eq, p2.length_eq, a1], by rw [p1.length_eq]; exact a2, by rw [p1.length_eq]; exact a3, ?_⟩
    rcases a4 with ⟨b1, b2⟩ | ⟨b1, b2⟩
    · exact .inl ⟨fun p hp => b1 p (p1.mem_iff.1 hp), fun p hp => b2 p (p2.mem_iff.1 hp)⟩
    · exact .inr ⟨fun p hp => b1 p (p1.mem_iff.1 hp), fun p hp => b2 p (p2.mem_iff.1 hp)⟩
  have bnd : ∀ {C : SQOperator}, (∀ t ∈ C, PHTerm m n t) → ∀ t ∈ C, (∀ p ∈ t.2.1, p < n) ∧ ∀ p ∈ t.2.2, p < n := by
    intro C hC t ht
    obtain ⟨_, _, _, ⟨b1, b2⟩ | ⟨b1, b2⟩⟩ := hC t ht
    · exact ⟨fun p hp => lt_of_lt_of_le (b1 p hp) hmn, fun p hp => (b2 p hp).2⟩
    · exact ⟨fun p hp => (b1 p hp).2, fun p hp => lt_of_lt_of_le (b2 p hp) hmn⟩
  have hreal : ∀ t ∈ R, (starRingEnd ℂ) t.1 = t.1 ∧ (t.1.re : ℂ) = t.1 ∧ |w| ≤ |t.1.re| := by
    intro t ht
    obtain ⟨k, hk⟩ := (hm t ht).1
    have hre : t.1.re = k * w := by rw [hk]; simp
    refine ⟨by rw [hk]; simp, by rw [hre, hk]; push_cast; rfl, ?_⟩
    rw [hre, abs_mul]
    have hk0 : k ≠ 0 := by rintro rfl; have := f4 t ht; rw [hk] at this; norm_num at this
    have : (1 : ℝ) ≤ |(k : ℝ)| := by rw [← Int.cast_abs]; exact_mod_cast Int.one_le_abs hk0
    nlinarith [abs_nonneg w]
  -- the partner terms are there
  let T : SQOperator := R.map fun t => (-t.1, t.2.2, t.2.1)
  have hdag : dagOp R = dagOp A := dagOp_determined (bnd hph) (bnd hsh) hop
  have hopT : SQOperator.op T = SQOperator.op A := by
    have e1 : SQOperator.op T = -dagOp R := by
      unfold SQOperator.op dagOp
      simp only [T, List.map_map]
      have : ∀ l : SQOperator, (∀ t ∈ l, t ∈ R) → (l.map ((fun t : SQTerm => t.1 • fermiString t.2.1 t.2.2) ∘ fun t => (-t.1, t.2.2, t.2.1))).sum =
          -(l.map fun t => (starRingEnd ℂ) t.1 • fermiString t.2.2.reverse t.2.1.reverse).sum := by
        intro l
        induction l with
        | nil => intro _; simp
        | cons t l ih =>
          intro hl
          have ht := hl t (by simp)
          rw [List.map_cons, List.sum_cons, List.map_cons, List.sum_cons, ih fun x hx => hl x (by simp [hx]), (hreal t ht).1,
            fermiString_reverse (sdesc_nodup (hdesc t ht).2) (sdesc_nodup (hdesc t ht).1) (hph t ht).1.symm]
          simp only [Function.comp_apply]
          module
      exact this R fun t ht => ht
    have e2 : SQOperator.op (A.map adjTerm) = -dagOp A := by
      unfold SQOperator.op dagOp
      rw [List.map_map]
      have : ∀ l : SQOperator, (∀ t ∈ l, t ∈ A) → (l.map ((fun t : SQTerm => t.1 • fermiString t.2.1 t.2.2) ∘ adjTerm)).sum =
          -(l.map fun t => (starRingEnd ℂ) t.1 • fermiString t.2.2.reverse t.2.1.reverse).sum := by
        intro l
        induction l with
        | nil => intro _; simp
        | cons t l ih =>
          intro hl
          have ht := hl t (by simp)
          have hc : (starRingEnd ℂ) t.1 = t.1 := by obtain ⟨k, hk⟩ := hz t ht; rw [hk]; simp
          rw [List.map_cons, List.sum_cons, List.map_cons, List.sum_cons, ih fun x hx => hl x (by simp [hx]), hc]
          simp only [Function.comp_apply, adjTerm]
          module
      exact this A fun t ht => ht
    rw [e1, hdag, ← e2]
    unfold SQOperator.op
    exact (hsym.map _).sum_eq
  have hpT : R.Perm T := by
    have hp := List.mergeSort_perm T (fun a b => !SQOperator.klt b.2 a.2)
    have hnd : (T.map Prod.snd).Nodup := by
      have h0 : (R.map Prod.snd).Nodup := by
        rw [List.nodup_iff_pairwise_ne, List.pairwise_map]
        exact f3.imp (by intro a b h e; exact SQOperator.klt_irrefl b.2 (e ▸ h))
      have : T.map Prod.snd = (R.map Prod.snd).map Prod.swap := by simp [T, Function.comp_def]
      rw [this]; exact h0.map Prod.swap_injective
    have := simplify_target o A (T.mergeSort fun a b => !SQOperator.klt b.2 a.2) hd ?_ ?_ ?_ ?_
    · rw [hR] at this
      injection this with this
      rw [this]; exact hp
    · intro t ht
      obtain ⟨u, hu, rfl⟩ := List.mem_map.1 (hp.mem_iff.1 ht)
      exact ⟨(hdesc u hu).2, (hdesc u hu).1⟩
    · have h1 := List.pairwise_mergeSort (le := fun a b : SQTerm => !SQOperator.klt b.2 a.2) (by
          intro a b c h1 h2
          simp only [Bool.not_eq_true'] at h1 h2 ⊢
          by_contra h3
          have h3 : SQOperator.klt c.2 a.2 = true := by simpa using h3
          by_cases h4 : SQOperator.klt a.2 b.2 = true
          · exact absurd (SQOperator.klt_trans h3 h4) (by simp [h2])
          · have := SQOperator.klt_eq h4 (by simp [h1])
            rw [this] at h3
            exact absurd h3 (by simp [h2])) (by
          intro a b
          simp only [Bool.or_eq_true, Bool.not_eq_true']
          by_cases h : SQOperator.klt b.2 a.2 = true
          · right
            by_contra h'
            exact SQOperator.klt_irrefl _ (SQOperator.klt_trans h (by simpa using h'))
          · left; simpa using h) T
      have h2 : ((T.mergeSort fun a b => !SQOperator.klt b.2 a.2).map Prod.snd).Nodup := ((hp.map Prod.snd).nodup_iff).2 hnd
      rw [List.nodup_iff_pairwise_ne, List.pairwise_map] at h2
      refine (h1.and h2).imp ?_
      rintro a b ⟨g1, g2⟩
      by_contra h
      exact g2 (SQOperator.klt_eq h (by simpa using g1))
    · intro t ht
      obtain ⟨u, hu, rfl⟩ := List.mem_map.1 (hp.mem_iff.1 ht)
      simpa using f4 u hu
    · rw [← hopT]; unfold SQOperator.op; exact (hp.map _).sum_eq
  -- the first half
  let P : SQTerm → Bool := fun t => decide (t.2.1.headD 0 < m)
  have hP : ∀ t ∈ R, (P t = true ↔ (∀ p ∈ t.2.1, p < m) ∧ ∀ p ∈ t.2.2, m ≤ p ∧ p < n) ∧ (P t = false ↔ (∀ p ∈ t.2.1, m ≤ p ∧ p < n) ∧ ∀ p ∈ t.2.2, p < m) := by
    intro t ht
    obtain ⟨h1, h2, _, h4⟩ := hph t ht
    obtain ⟨x, l, e⟩ : ∃ x l, t.2.1 = x :: l := by
      cases h : t.2.1 with
      | nil => rw [h] at h2; simp at h2
      | cons x l => exact ⟨x, l, rfl⟩
    simp only [P, e, List.headD_cons, decide_eq_true_eq, decide_eq_false_iff_not, not_lt]
    rw [e] at h4
    rcases h4 with ⟨b1, b2⟩ | ⟨b1, b2⟩
    · have := b1 x (by simp)
      exact ⟨⟨fun _ => ⟨b1, b2⟩, fun _ => this⟩, ⟨fun h => by omega, fun h => by have := (h.1 x (by simp)).1; omega⟩⟩
    · have := (b1 x (by simp)).1
      exact ⟨⟨fun h => by omega, fun h => by have := h.1 x (by simp); omega⟩, ⟨fun _ => ⟨b1, b2⟩, fun _ => this⟩⟩
  have hsplit : R = R.filter P ++ R.filter fun t => !P t := by
    refine sorted_split P R ?_
    have := f3
    have h' : R.Pairwise fun x y => x ∈ R ∧ y ∈ R := by
      rw [List.pairwise_iff_forall_sublist]
      intro a b h
      exact ⟨h.subset (by simp), h.subset (by simp)⟩
    refine (f3.and h').imp ?_
    rintro x y ⟨hk, hx, hy⟩ hpy
    by_contra hpx
    have hpx : P x = false := by simpa using hpx
    have g1 := ((hP y hy).1.1 hpy).1
    have g2 := ((hP x hx).2.1 hpx).1
    obtain ⟨_, x1, _, _⟩ := hph x hx
    obtain ⟨_, y1, _, _⟩ := hph y hy
    rw [SQOperator.klt_iff] at hk
    cases ex : x.2.1 with
    | nil => rw [ex] at x1; simp at x1
    | cons a l =>
      cases ey : y.2.1 with
      | nil => rw [ey] at y1; simp at y1
      | cons b l' =>
        have ha := (g2 a (by simp [ex])).1
        have hb := g1 b (by simp [ey])
        rcases (Prod.Lex.toLex_lt_toLex).1 hk with h | ⟨h, _⟩
        · rw [ex, ey] at h
          rcases List.cons_lt_cons_iff.1 h with h | ⟨h, _⟩ <;> omega
        · rw [ex, ey] at h; injection h; omega
  have hflt : (R.filter fun t => !P t).Perm ((R.filter P).map fun t => (-t.1, t.2.2, t.2.1)) := by
    have e1 : T.filter (fun t => !P t) = (R.filter P).map fun t => (-t.1, t.2.2, t.2.1) := by
      simp only [T]
      rw [List.filter_map]
      congr 1
      refine List.filter_congr fun t ht => ?_
      simp only [Function.comp_apply]
      have hmem : (-t.1, t.2.2, t.2.1) ∈ R := hpT.mem_iff.2 (List.mem_map.2 ⟨t, ht, rfl⟩)
      obtain ⟨_, h1, _, _⟩ := hph t ht
      cases hp : P t with
      | true =>
        have := (hP t ht).1.1 hp
        have : P (-t.1, t.2.2, t.2.1) = false := (hP _ hmem).2.2 ⟨this.2, this.1⟩
        rw [this]; rfl
      | false =>
        have := (hP t ht).2.1 hp
        have : P (-t.1, t.2.2, t.2.1) = true := (hP _ hmem).1.2 ⟨this.2, this.1⟩
        rw [this]; rfl
    rw [← e1]
    exact hpT.filter _
  refine ⟨(R.filter P).map fun t => (r * t.1.re, t.2), ⟨⟨⟨(R.filter fun t => !P t).map fun t => (t.1 * (r : ℂ), t.2), ?_, ?_⟩, ?_⟩, ?_, ?_, r * w, 2, ?_, ?_⟩⟩
  · show R.map (fun t => (t.1 * (r : ℂ), t.2)) = _
    conv_lhs => rw [hsplit]
    rw [List.map_append, List.map_map]
    congr 1
    refine List.map_congr_left fun t ht => ?_
    have := (hreal t (List.mem_filter.1 ht).1).2.1
    simp only [Function.comp_apply]
    push_cast
    rw [this, mul_comm]
  · refine (hflt.map _).trans ?_
    rw [List.map_map, List.map_map]
    refine List.Perm.of_eq (List.map_congr_left fun t ht => ?_)
    have := (hreal t (List.mem_filter.1 ht).1).2.1
    simp only [Function.comp_apply]
    push_cast
    rw [this]
    congr 1; ring
  · intro y hy
    obtain ⟨t, ht, rfl⟩ := List.mem_map.1 hy
    obtain ⟨htR, hp⟩ := List.mem_filter.1 ht
    obtain ⟨b1, b2⟩ := (hP t htR).1.1 hp
    obtain ⟨c1, c2, c3, _⟩ := hph t htR
    refine ⟨⟨(hdesc t htR).1, (hdesc t htR).2, c1, ?_, fun p hp => lt_of_lt_of_le (b1 p hp) hmn, fun p hp => (b2 p hp).2⟩, by simp only; omega, ?_⟩
    · intro e
      obtain ⟨p, hp⟩ := List.exists_mem_of_length_pos (show 0 < t.2.1.length by omega)
      have h1 := b1 p hp
      rw [e] at hp
      have := (b2 p hp).1
      omega
    · have h16 : (4 : ℝ) ^ t.2.1.length ≤ 16 := by
        calc (4 : ℝ) ^ t.2.1.length ≤ 4 ^ 2 := pow_le_pow_right₀ (by norm_num) c3
          _ = 16 := by norm_num
      simp only
      have hr0 : 0 < r := by
        by_contra h
        have : r * |w| ≤ 0 := mul_nonpos_of_nonpos_of_nonneg (not_lt.1 h) (abs_nonneg w)
        linarith
      rw [abs_mul, abs_of_pos hr0]
      have := (hreal t htR).2.2
      nlinarith
  · unfold SQOperator.multCoeffs
    rw [List.pairwise_map]
    exact f3
  · intro y hy
    obtain ⟨t, ht, rfl⟩ := List.mem_map.1 hy
    obtain ⟨htR, hp⟩ := List.mem_filter.1 ht
    obtain ⟨b1, b2⟩ := (hP t htR).1.1 hp
    refine List.nodup_append.2 ⟨sdesc_nodup (hdesc t htR).1, sdesc_nodup (hdesc t htR).2, ?_⟩
    intro x hx y hy e
    have := b1 x hx
    have := (b2 y hy).1
    omega
  · have hr0 : 0 < r := by
      by_contra h
      have : r * |w| ≤ 0 := mul_nonpos_of_nonpos_of_nonneg (not_lt.1 h) (abs_nonneg w)
      linarith
    rw [abs_mul, abs_of_pos hr0]
    norm_num at hr ⊢
    exact hr
  · intro y hy
    obtain ⟨t, ht, rfl⟩ := List.mem_map.1 hy
    obtain ⟨htR, _⟩ := List.mem_filter.1 ht
    obtain ⟨k, hk⟩ := (hm t htR).1
    refine ⟨(hph t htR).2.2.1, k, ?_⟩
    simp only [hk]
    simp
    ring

/-- what `guardTerm` appends -/
noncomputable def gterm (z : ℂ) (c0 c1 a0 a1 : ℕ) : SQOperator := if c0 ≠ c1 ∧ a0 ≠ a1 then [(z, [c0, c1], [a0, a1])] else []

theorem guardTerm_eq (z : ℂ) (c0 c1 a0 a1 : ℕ) (t : SQOperator) : SQOpPool.guardTerm z c0 c1 a0 a1 t = t ++ gterm z c0 c1 a0 a1 := by
  unfold SQOpPool.guardTerm gterm
  split <;> simp [SQOperator.addTerm]

theorem gterm_adj (z : ℂ) (c0 c1 a0 a1 : ℕ) : (gterm z c0 c1 a0 a1).map adjTerm = gterm (-z) a1 a0 c1 c0 := by
  unfold gterm
  by_cases h : c0 ≠ c1 ∧ a0 ≠ a1
  · rw [if_pos h, if_pos ⟨h.2.symm, h.1.symm⟩]; rfl
  · rw [if_neg h, if_neg fun h' => h ⟨h'.2.symm, h'.1.symm⟩]; rfl

theorem gterm_length (z : ℂ) (c0 c1 a0 a1 : ℕ) : (gterm z c0 c1 a0 a1).length ≤ 1 := by unfold gterm; split <;> simp

theorem gterm_norm {z : ℂ} {b : ℝ} (h : ‖z‖ ≤ b) (c0 c1 a0 a1 : ℕ) : ((gterm z c0 c1 a0 a1).map fun x => ‖x.1‖).sum ≤ b := by
  have := norm_nonneg z
  unfold gterm; split <;> simp <;> linarith

theorem gterm_ph {m n : ℕ} {z : ℂ} {c0 c1 a0 a1 : ℕ}
    (h : (c0 < m ∧ c1 < m ∧ (m ≤ a0 ∧ a0 < n) ∧ m ≤ a1 ∧ a1 < n) ∨ (a0 < m ∧ a1 < m ∧ (m ≤ c0 ∧ c0 < n) ∧ m ≤ c1 ∧ c1 < n)) :
    ∀ t ∈ gterm z c0 c1 a0 a1, PHTerm m n t := by
  intro t ht
  unfold gterm at ht
  split at ht
  · rw [List.mem_singleton.1 ht]
    refine ⟨rfl, by simp, by simp, ?_⟩
    simp only [List.mem_cons, List.not_mem_nil, or_false, forall_eq_or_imp, forall_eq]
    omega
  · simp at ht

/-- a doubles operator of the sa_SD pool, given as its excitations `G` and their partners -/
theorem saNormalise_elem (o : DescSort) {A G R : SQOperator} (hA : A.Perm (G ++ G.map adjTerm)) (hG : ∀ t ∈ G, adjTerm (adjTerm t) = t)
    (hR : SQOperator.simplify o A = .ok R) {m n : ℕ} (hmn : m ≤ n) {w : ℝ} (hw : 1e-12 < w)
    (hd : A.Distinct) (hz : ∀ t ∈ A, SQOpPool.Mul w t.1) (hsh : ∀ t ∈ A, PHTerm m n t) (hlen : A.length ≤ 12) (hnorm : (A.map fun x => ‖x.1‖).sum ≤ 16 * w) :
    ∃ ys, SaGood n ys (SQOpPool.saNormalise R) := by
  have hw0 : 0 < w := by linarith
  have hsym : (A.map adjTerm).Perm A := by
    refine (hA.map _).trans ?_
    rw [List.map_append, List.map_map]
    have : G.map (adjTerm ∘ adjTerm) = G := by
      conv_rhs => rw [← List.map_id G]
      exact List.map_congr_left fun t ht => hG t ht
    rw [this]
    exact List.perm_append_comm.trans hA.symm
  obtain ⟨hm, hl⟩ := simplify_mul o hR hz
  cases R with
  | nil => exact ⟨[], ⟨⟨⟨[], by simp [SQOpPool.saNormalise, SQOperator.multCoeffs], by simp⟩, by simp⟩, by simp [SQOpPool.saNormalise, SQOperator.multCoeffs], by simp, 1, 2, by norm_num, by simp⟩⟩
  | cons x R =>
    refine saElem_of o hR hmn (by rw [abs_of_pos hw0]; exact hw) hd hz hsym hsh ?_
    rw [abs_of_pos hw0]
    set S := (((x :: R : SQOperator)).map fun x => ‖x.1‖ ^ 2).sum with hS
    have h1 : S ≤ 12 * (16 * w) ^ 2 := by
      have : ∀ l : SQOperator, (∀ t ∈ l, ‖t.1‖ ≤ 16 * w) → (l.map fun x => ‖x.1‖ ^ 2).sum ≤ l.length * (16 * w) ^ 2 := by
        intro l
        induction l with
        | nil => intro _; simp
        | cons t l ih =>
          intro h
          have h1 := ih fun x hx => h x (by simp [hx])
          have h2 := h t (by simp)
          rw [List.map_cons, List.sum_cons, List.length_cons]
          push_cast
          have : ‖t.1‖ ^ 2 ≤ (16 * w) ^ 2 := pow_le_pow_left₀ (norm_nonneg _) h2 2
          linarith
      refine (this _ fun t ht => (hm t ht).2.trans hnorm).trans ?_
      have : ((x :: R : SQOperator).length : ℝ) ≤ 12 := by exact_mod_cast hl.trans hlen
      exact mul_le_mul_of_nonneg_right this (by positivity)
    have hS0 : 0 < S := by
      have hx : x.1 ≠ 0 := SQOpPool.simplify_nonzero o hR x (by simp)
      have hp : 0 < ‖x.1‖ := norm_pos_iff.2 hx
      have h0 : 0 ≤ (R.map fun x => ‖x.1‖ ^ 2).sum := List.sum_nonneg (by intro y hy; obtain ⟨z, _, rfl⟩ := List.mem_map.1 hy; positivity)
      rw [hS, List.map_cons, List.sum_cons]
      positivity
    have h2 : (1 / (100 * w)) ^ 2 ≤ 2 / S := by
      rw [div_pow, one_pow, div_le_div_iff₀ (by positivity) hS0]
      nlinarith [sq_nonneg w]
    have h3 : 1 / (100 * w) ≤ Real.sqrt (2 / S) := Real.le_sqrt_of_sq_le h2
    calc (1.6e-11 : ℝ) < 1 / 100 := by norm_num
      _ = 1 / (100 * w) * w := by field_simp
      _ ≤ Real.sqrt (2 / S) * w := mul_le_mul_of_nonneg_right h3 hw0.le

theorem gterm_distinct (z : ℂ) (c0 c1 a0 a1 : ℕ) : SQOperator.Distinct (gterm z c0 c1 a0 a1) := by
  intro t ht
  unfold gterm at ht
  split at ht
  · rename_i h; rw [List.mem_singleton.1 ht]; simpa using h
  · simp at ht

theorem adj_adj (z : ℂ) (c0 c1 a0 a1 : ℕ) : ∀ t ∈ gterm z c0 c1 a0 a1, adjTerm (adjTerm t) = t := by
  intro t _
  simp [adjTerm]

theorem triplet_elem (o : DescSort) {m n ia ib ja jb aa ab ba bb : ℕ} (hmn : m ≤ n)
    (hb : (ia < m ∧ ib < m ∧ ja < m ∧ jb < m) ∧ (m ≤ aa ∧ m ≤ ab ∧ m ≤ ba ∧ m ≤ bb) ∧ aa < n ∧ ab < n ∧ ba < n ∧ bb < n) {R : SQOperator}
    (hR : SQOperator.simplify o (SQOpPool.saTriplet ia ib ja jb aa ab ba bb) = .ok R) : ∃ ys, SaGood n ys (SQOpPool.saNormalise R) := by
  have hw0 : 0 < 1 / Real.sqrt 12 := by positivity
  have hnw : ‖((1 / Real.sqrt 12 : ℝ) : ℂ)‖ = 1 / Real.sqrt 12 := by rw [Complex.norm_real, Real.norm_eq_abs, abs_of_pos hw0]
  have hz := SQOpPool.saTriplet_mul ia ib ja jb aa ab ba bb
  have hd : (SQOpPool.saTriplet ia ib ja jb aa ab ba bb).Distinct := by
    unfold SQOpPool.saTriplet; repeat' apply SQOpPool.guardTerm_distinct
    intro t ht; simp at ht
  obtain ⟨W, hW⟩ : ∃ W, W = ((1 / Real.sqrt 12 : ℝ) : ℂ) := ⟨_, rfl⟩
  have eA : SQOpPool.saTriplet ia ib ja jb aa ab ba bb =
      gterm (2 * W) aa ba ia ja ++ gterm (2 * W) ab bb ib jb ++ gterm W aa bb ia jb ++ gterm W ab ba ib ja ++ gterm W aa bb ib ja ++ gterm W ab ba ia jb ++
      gterm (-(2 * W)) ja ia ba aa ++ gterm (-(2 * W)) jb ib bb ab ++ gterm (-W) jb ia bb aa ++ gterm (-W) ja ib ba ab ++ gterm (-W) ja ib bb aa ++ gterm (-W) jb ia ba ab := by
    unfold SQOpPool.saTriplet
    simp only [guardTerm_eq, List.nil_append, hW]
  have n1 : ‖W‖ ≤ 1 / Real.sqrt 12 := by rw [hW, hnw]
  have n2 : ‖2 * W‖ ≤ 2 * (1 / Real.sqrt 12) := by rw [norm_mul, hW, hnw]; norm_num
  have n3 : ‖-W‖ ≤ 1 / Real.sqrt 12 := by rw [norm_neg]; exact n1
  have n4 : ‖-(2 * W)‖ ≤ 2 * (1 / Real.sqrt 12) := by rw [norm_neg]; exact n2
  refine saNormalise_elem o (G := gterm (2 * W) aa ba ia ja ++ gterm (2 * W) ab bb ib jb ++ gterm W aa bb ia jb ++ gterm W ab ba ib ja ++ gterm W aa bb ib ja ++ gterm W ab ba ia jb)
    ?_ ?_ hR hmn (w := 1 / Real.sqrt 12) (by have := SQOpPool.sqrt12; rwa [abs_of_pos hw0] at this) hd hz ?_ ?_ ?_
  · rw [eA]
    simp only [List.map_append, gterm_adj, List.append_assoc]
    exact List.Perm.refl _
  · intro t ht
    simp [adjTerm]
  · rw [eA]
    intro t ht
    simp only [List.mem_append] at ht
    rcases ht with ((((((((((ht | ht) | ht) | ht) | ht) | ht) | ht) | ht) | ht) | ht) | ht) | ht <;> refine gterm_ph ?_ t ht <;> omega
  · rw [eA]
    simp only [List.length_append]
    have h := gterm_length
    have h1 := h (2 * W) aa ba ia ja; have h2 := h (2 * W) ab bb ib jb; have h3 := h W aa bb ia jb; have h4 := h W ab ba ib ja
    have h5 := h W aa bb ib ja; have h6 := h W ab ba ia jb
    have h7 := h (-(2 * W)) ja ia ba aa; have h8 := h (-(2 * W)) jb ib bb ab; have h9 := h (-W) jb ia bb aa; have h10 := h (-W) ja ib ba ab
    have h11 := h (-W) ja ib bb aa; have h12 := h (-W) jb ia ba ab
    omega
  · rw [eA]
    simp only [List.map_append, List.sum_append]
    have h1 := gterm_norm n2 aa ba ia ja; have h2 := gterm_norm n2 ab bb ib jb; have h3 := gterm_norm n1 aa bb ia jb; have h4 := gterm_norm n1 ab ba ib ja
    have h5 := gterm_norm n1 aa bb ib ja; have h6 := gterm_norm n1 ab ba ia jb
    have h7 := gterm_norm n4 ja ia ba aa; have h8 := gterm_norm n4 jb ib bb ab; have h9 := gterm_norm n3 jb ia bb aa; have h10 := gterm_norm n3 ja ib ba ab
    have h11 := gterm_norm n3 ja ib bb aa; have h12 := gterm_norm n3 jb ia ba ab
    linarith

theorem singlet_elem (o : DescSort) {m n ia ib ja jb aa ab ba bb : ℕ} (hmn : m ≤ n)
    (hb : (ia < m ∧ ib < m ∧ ja < m ∧ jb < m) ∧ (m ≤ aa ∧ m ≤ ab ∧ m ≤ ba ∧ m ≤ bb) ∧ aa < n ∧ ab < n ∧ ba < n ∧ bb < n) {R : SQOperator}
    (hR : SQOperator.simplify o (SQOpPool.saSinglet ia ib ja jb aa ab ba bb) = .ok R) : ∃ ys, SaGood n ys (SQOpPool.saNormalise R) := by
  have hz := SQOpPool.saSinglet_mul ia ib ja jb aa ab ba bb
  have hd : (SQOpPool.saSinglet ia ib ja jb aa ab ba bb).Distinct := by
    unfold SQOpPool.saSinglet; repeat' apply SQOpPool.guardTerm_distinct
    intro t ht; simp at ht
  obtain ⟨W, hW⟩ : ∃ W, W = (1 / 2 : ℂ) := ⟨_, rfl⟩
  have eA : SQOpPool.saSinglet ia ib ja jb aa ab ba bb =
      gterm W aa bb ia jb ++ gterm W ab ba ib ja ++ gterm (-W) aa bb ib ja ++ gterm (-W) ab ba ia jb ++
      gterm (-W) jb ia bb aa ++ gterm (-W) ja ib ba ab ++ gterm W ja ib bb aa ++ gterm W jb ia ba ab := by
    unfold SQOpPool.saSinglet
    simp only [guardTerm_eq, List.nil_append, hW]
  have n1 : ‖W‖ ≤ 1 / 2 := by rw [hW]; norm_num
  have n3 : ‖-W‖ ≤ 1 / 2 := by rw [norm_neg]; exact n1
  refine saNormalise_elem o (G := gterm W aa bb ia jb ++ gterm W ab ba ib ja ++ gterm (-W) aa bb ib ja ++ gterm (-W) ab ba ia jb)
    ?_ ?_ hR hmn (w := 1 / 2) (by norm_num) hd hz ?_ ?_ ?_
  · rw [eA]
    simp only [List.map_append, gterm_adj, List.append_assoc, neg_neg]
    exact List.Perm.refl _
  · intro t ht
    simp [adjTerm]
  · rw [eA]
    intro t ht
    simp only [List.mem_append] at ht
    rcases ht with ((((((ht | ht) | ht) | ht) | ht) | ht) | ht) | ht <;> refine gterm_ph ?_ t ht <;> omega
  · rw [eA]
    simp only [List.length_append]
    have h := gterm_length
    have h3 := h W aa bb ia jb; have h4 := h W ab ba ib ja
    have h5 := h (-W) aa bb ib ja; have h6 := h (-W) ab ba ia jb
    have h9 := h (-W) jb ia bb aa; have h10 := h (-W) ja ib ba ab
    have h11 := h W ja ib bb aa; have h12 := h W jb ia ba ab
    omega
  · rw [eA]
    simp only [List.map_append, List.sum_append]
    have h3 := gterm_norm n1 aa bb ia jb; have h4 := gterm_norm n1 ab ba ib ja
    have h5 := gterm_norm n3 aa bb ib ja; have h6 := gterm_norm n3 ab ba ia jb
    have h9 := gterm_norm n3 jb ia bb aa; have h10 := gterm_norm n3 ja ib ba ab
    have h11 := gterm_norm n1 ja ib bb aa; have h12 := gterm_norm n1 jb ia ba ab
    linarith

theorem single_elem (o : DescSort) {m n ia ib aa ab : ℕ} (hmn : m ≤ n) (hb : (ia < m ∧ ib < m) ∧ (m ≤ aa ∧ m ≤ ab) ∧ aa < n ∧ ab < n) {R : SQOperator}
    (hR : SQOperator.simplify o ((((SQOperator.addTerm [] ((1 / Real.sqrt 2 : ℝ) : ℂ) [aa] [ia]).addTerm ((1 / Real.sqrt 2 : ℝ) : ℂ) [ab] [ib]).addTerm
      (-((1 / Real.sqrt 2 : ℝ) : ℂ)) [ia] [aa]).addTerm (-((1 / Real.sqrt 2 : ℝ) : ℂ)) [ib] [ab]) = .ok R) : ∃ ys, SaGood n ys R := by
  have hw : (0 : ℝ) < 1 / Real.sqrt 2 := by positivity
  have hbig : (1.6e-11 : ℝ) < 1 / Real.sqrt 2 := by
    have : Real.sqrt 2 < 2 := by rw [Real.sqrt_lt' (by norm_num)]; norm_num
    rw [lt_div_iff₀ (by positivity)]; linarith
  have hm1 : SQOpPool.Mul (1 / Real.sqrt 2) ((1 / Real.sqrt 2 : ℝ) : ℂ) := ⟨1, by push_cast; ring⟩
  have h := saElem_of o hR hmn (w := 1 / Real.sqrt 2) (by rw [abs_of_pos hw]; linarith) (r := 1) ?_ ?_ ?_ ?_ (by rw [abs_of_pos hw, one_mul]; exact hbig)
  · have e : R.multCoeffs ((1 : ℝ) : ℂ) = R := by simp [SQOperator.multCoeffs]
    rwa [e] at h
  all_goals simp only [SQOperator.addTerm, List.nil_append, List.cons_append]
  · intro t ht
    simp only [List.mem_cons, List.not_mem_nil, or_false] at ht
    rcases ht with rfl | rfl | rfl | rfl <;> simp
  · intro t ht
    simp only [List.mem_cons, List.not_mem_nil, or_false] at ht
    rcases ht with rfl | rfl | rfl | rfl
    · exact hm1
    · exact hm1
    · exact hm1.neg
    · exact hm1.neg
  · simp only [List.map_cons, List.map_nil, adjTerm, List.reverse_cons, List.reverse_nil, List.nil_append, neg_neg]
    exact List.perm_append_comm (l₁ := [_, _]) (l₂ := [_, _])
  · intro t ht
    simp only [List.mem_cons, List.not_mem_nil, or_false] at ht
    rcases ht with rfl | rfl | rfl | rfl <;> refine ⟨rfl, by simp, by simp, ?_⟩ <;> simp <;> omega

theorem foldlM_added {α : Type} (f : SQOpPool → α → Except Exc SQOpPool) (G : ℂ × SQOperator → Prop) (l : List α)
    (h : ∀ (P P' : SQOpPool), ∀ x ∈ l, f P x = .ok P' → ∃ new, P' = { P with terms := P.terms ++ new } ∧ ∀ t ∈ new, G t) :
    ∀ P P' : SQOpPool, l.foldlM f P = .ok P' → ∃ new, P' = { P with terms := P.terms ++ new } ∧ ∀ t ∈ new, G t := by
  induction l with
  | nil => intro P P' e; simp [pure, Except.pure] at e; exact ⟨[], by simp [e], by simp⟩
  | cons x l ih =>
    intro P P' e
    rw [List.foldlM_cons] at e
    cases e1 : f P x with
    | error x => rw [e1] at e; cases e
    | ok P1 =>
      rw [e1, except_ok_bind] at e
      obtain ⟨n1, rfl, g1⟩ := h P P1 x (by simp) e1
      obtain ⟨n2, rfl, g2⟩ := ih (fun P P' x hx => h P P' x (by simp [hx])) _ _ e
      refine ⟨n1 ++ n2, by simp, ?_⟩
      intro t ht
      rcases List.mem_append.1 ht with h | h
      exacts [g1 t h, g2 t h]

/-- C64: every element the sa_SD pool adds consists of weighted terms `w τ` in its first half and the partners `-w τ†` in its second half, which is the
shape `ansatz_circuit` relies on; so the hypothesis of `C70_sa_SD` holds for every ansatz over that pool. -/
theorem C64_halves (o : DescSort) (P : SQOpPool) (hc : P.nOccAlpha = P.nOccBeta) (hl : P.nOccAlpha + P.nVirAlpha ≤ P.orbIrreps.length) :
    ∃ new, SQOpPool.fillSaSD o P = .ok { P with terms := P.terms ++ new } ∧ ∀ t ∈ new, ∃ ys, SaGood (2 * (P.nOccAlpha + P.nVirAlpha)) ys t.2 := by
  obtain ⟨new, e, _⟩ := SQOpPool.C64_contents o P hc hl
  refine ⟨new, e, ?_⟩
  unfold SQOpPool.fillSaSD at e
  rw [if_neg (by simpa using hc)] at e
  cases e1 : ((List.range P.nOccAlpha).flatMap fun i => (List.range P.nVirAlpha).map fun a => (i, a)).foldlM (SQOpPool.saSingles o P.nOccAlpha) P with
  | error x => simp only [e1] at e; cases e
  | ok P1 =>
    simp only [e1, except_ok_bind] at e
    obtain ⟨n1, rfl, g1⟩ := foldlM_added _ (fun t => ∃ ys, SaGood (2 * (P.nOccAlpha + P.nVirAlpha)) ys t.2) _ (by
      intro Q Q' x hx hQ
      obtain ⟨i, hi, hx⟩ := List.mem_flatMap.1 hx
      obtain ⟨a, ha, rfl⟩ := List.mem_map.1 hx
      have hi := List.mem_range.1 hi
      have ha := List.mem_range.1 ha
      unfold SQOpPool.saSingles at hQ
      simp only at hQ
      cases e2 : findIrrep Q.orbIrreps [2 * i, 2 * P.nOccAlpha + 2 * a] with
      | error x => rw [e2] at hQ; cases hQ
      | ok irr =>
        rw [e2, except_ok_bind] at hQ
        split at hQ
        · cases e3 : SQOperator.simplify o ((((SQOperator.addTerm [] ((1 / Real.sqrt 2 : ℝ) : ℂ) [2 * P.nOccAlpha + 2 * a] [2 * i]).addTerm ((1 / Real.sqrt 2 : ℝ) : ℂ) [2 * P.nOccAlpha + 2 * a + 1] [2 * i + 1]).addTerm
            (-((1 / Real.sqrt 2 : ℝ) : ℂ)) [2 * i] [2 * P.nOccAlpha + 2 * a]).addTerm (-((1 / Real.sqrt 2 : ℝ) : ℂ)) [2 * i + 1] [2 * P.nOccAlpha + 2 * a + 1]) with
          | error x => rw [e3] at hQ; cases hQ
          | ok R =>
            rw [e3] at hQ
            cases hQ
            refine ⟨[(1, R)], rfl, ?_⟩
            intro t ht
            rw [List.mem_singleton.1 ht]
            exact single_elem o (m := 2 * P.nOccAlpha) (by omega) (by omega) e3
        · cases hQ; exact ⟨[], by simp, by simp⟩) _ _ e1
    obtain ⟨n2, e2, g2⟩ := foldlM_added _ (fun t => ∃ ys, SaGood (2 * (P.nOccAlpha + P.nVirAlpha)) ys t.2) _ (by
      rintro Q Q' ⟨i, j, a, b⟩ hx hQ
      have hx : (i ≤ j ∧ j < P.nOccAlpha) ∧ a ≤ b ∧ b < P.nVirAlpha := SQOpPool.mem_gsdQuads.1 hx
      unfold SQOpPool.saDoubles at hQ
      simp only at hQ
      cases e2 : findIrrep Q.orbIrreps [2 * i, 2 * j, 2 * P.nOccAlpha + 2 * a, 2 * P.nOccAlpha + 2 * b] with
      | error x => rw [e2] at hQ; cases hQ
      | ok irr =>
        rw [e2, except_ok_bind] at hQ
        split at hQ
        · cases e3 : SQOperator.simplify o (SQOpPool.saTriplet (2 * i) (2 * i + 1) (2 * j) (2 * j + 1) (2 * P.nOccAlpha + 2 * a) (2 * P.nOccAlpha + 2 * a + 1) (2 * P.nOccAlpha + 2 * b) (2 * P.nOccAlpha + 2 * b + 1)) with
          | error x => rw [e3] at hQ; cases hQ
          | ok R1 =>
            rw [e3, except_ok_bind] at hQ
            cases e4 : SQOperator.simplify o (SQOpPool.saSinglet (2 * i) (2 * i + 1) (2 * j) (2 * j + 1) (2 * P.nOccAlpha + 2 * a) (2 * P.nOccAlpha + 2 * a + 1) (2 * P.nOccAlpha + 2 * b) (2 * P.nOccAlpha + 2 * b + 1)) with
            | error x => rw [e4] at hQ; cases hQ
            | ok R2 =>
              rw [e4, except_ok_bind] at hQ
              have s1 := triplet_elem o (m := 2 * P.nOccAlpha) (n := 2 * (P.nOccAlpha + P.nVirAlpha)) (by omega) (by omega) e3
              have s2 := singlet_elem o (m := 2 * P.nOccAlpha) (n := 2 * (P.nOccAlpha + P.nVirAlpha)) (by omega) (by omega) e4
              simp only [pure, Except.pure, Except.ok.injEq] at hQ
              subst hQ
              have add : ∀ (Q : SQOpPool) (R : SQOperator), (∃ ys, SaGood (2 * (P.nOccAlpha + P.nVirAlpha)) ys R) →
                  ∃ new, (if R.length > 0 then Q.addTerm 1 R else Q) = { Q with terms := Q.terms ++ new } ∧ ∀ t ∈ new, ∃ ys, SaGood (2 * (P.nOccAlpha + P.nVirAlpha)) ys t.2 := by
                intro Q R h
                split
                · exact ⟨[(1, R)], rfl, by intro t ht; rw [List.mem_singleton.1 ht]; exact h⟩
                · exact ⟨[], by simp, by simp⟩
              obtain ⟨m1, k1, k2⟩ := add Q _ s1
              rw [k1]
              obtain ⟨m2, k3, k4⟩ := add { Q with terms := Q.terms ++ m1 } _ s2
              rw [k3]
              refine ⟨m1 ++ m2, by simp, ?_⟩
              intro t ht
              rcases List.mem_append.1 ht with h | h
              exacts [k2 t h, k4 t h]
        · cases hQ; exact ⟨[], by simp, by simp⟩) _ _ e
    have : P.terms ++ new = P.terms ++ n1 ++ n2 := congrArg SQOpPool.terms e2
    rw [List.append_assoc] at this
    have := List.append_cancel_left this
    subst this
    intro t ht
    rcases List.mem_append.1 ht with h | h
    exacts [g1 t h, g2 t h]

/-- C70: the state the ansatz acts on: the preparation circuit applied to the computer the algorithm was given, or to `|0…0⟩` if none was. -/
theorem C70_reference (A : UccAlg) :
    (∀ q, A.computer = some q → A.reference = A.uprep.op q.psi) ∧ (A.computer = none → A.reference = A.uprep.op (Pi.single 0 1)) := by
  constructor
  · intro q h; unfold UccAlg.reference UccAlg.initialComputer; rw [h]; rfl
  · intro h; unfold UccAlg.reference UccAlg.initialComputer; rw [h, Option.getD_none, (C60_init A.nqb).2]

/-- the hypothesis of `C70_sa_SD` on two qubit pairs: a singlet single excitation as sa_SD holds it -/
theorem C70_sa_example : ∃ A : UccAlg, A.SelectsSa [[(-0.5, [0], [2]), (-0.5, [1], [3])]] ∧ A.saSD = true ∧ A.compact = false ∧ 1 ≤ A.trotterNumber := by
  refine ⟨{ nqb := 4, ham := [], pool := [(1, [(-0.5, [0], [2]), (-0.5, [1], [3]), (0.5, [2], [0]), (0.5, [3], [1])])], saSD := true, tops := [0], tamps := [0.3] },
    List.Forall₂.cons ⟨1, _, rfl, ⟨⟨[(0.5, [2], [0]), (0.5, [3], [1])], ?_, ?_⟩, ?_⟩⟩ List.Forall₂.nil, rfl, rfl, le_rfl⟩
  · norm_num
  · norm_num
  · intro y hy
    simp only [List.mem_cons, List.not_mem_nil, or_false] at hy
    rcases hy with rfl | rfl
    · refine ⟨⟨by simp, by simp, rfl, by simp, by simp, by simp⟩, by simp, ?_⟩
      norm_num
    · refine ⟨⟨by simp, by simp, rfl, by simp, by simp, by simp⟩, by simp, ?_⟩
      norm_num

end QF
