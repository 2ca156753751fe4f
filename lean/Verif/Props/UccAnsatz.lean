import Verif.Model.UCC
import Verif.Spec.UCC
import Verif.Props.TrotterExact
import Verif.Props.SQPoolQubit
import Verif.Lemmas.UccGrad
import Verif.Props.ExpVal
import Verif.Lemmas.Flat

/-!
C70: the unitary coupled-cluster ansatz circuit.
-/
namespace QF

open SQOperator (DescSort jwTransform)
open QubitOperator (SortOracle)

/-- the pool operators picked by `tops` are the excitations `xs`, one by one -/
def UccAlg.Selects (A : UccAlg) (xs : List (List ℕ × List ℕ)) : Prop :=
  List.Forall₂ (fun i (x : List ℕ × List ℕ) => ∃ z, A.pool[i]? = some (z, excTerms x.1 x.2) ∧ Excit A.nqb x.1 x.2 ∧ x.1.length ≤ 19) A.tops xs

theorem tempPool_eq {A : UccAlg} {xs : List (List ℕ × List ℕ)} (h : A.Selects xs) (hs : A.saSD = false) (ts : List ℝ) :
    A.tempPool ts = .ok (List.zipWith (fun (t : ℝ) (x : List ℕ × List ℕ) => ((t : ℂ), excTerms x.1 x.2)) ts xs) := by
  unfold UccAlg.tempPool UccAlg.Selects at *
  have key : ∀ (is : List ℕ) (xs : List (List ℕ × List ℕ)) (ts : List ℝ) (acc : List (ℂ × SQOperator)),
      List.Forall₂ (fun i (x : List ℕ × List ℕ) => ∃ z, A.pool[i]? = some (z, excTerms x.1 x.2) ∧ Excit A.nqb x.1 x.2 ∧ x.1.length ≤ 19) is xs →
      (List.zip ts is).foldlM (fun l p => (do
        let e ← A.tempElems p
        pure (l ++ e) : Except Exc (List (ℂ × SQOperator)))) acc =
        .ok (acc ++ List.zipWith (fun (t : ℝ) (x : List ℕ × List ℕ) => ((t : ℂ), excTerms x.1 x.2)) ts xs) := by
    intro is xs ts acc h
    induction h generalizing ts acc with
    | nil => simp [pure, Except.pure]
    | @cons i x is xs hx h ih =>
      cases ts with
      | nil => simp [pure, Except.pure]
      | cons t ts =>
        obtain ⟨z, e, _⟩ := hx
        have e1 : A.tempElems (t, i) = .ok [((t : ℂ), excTerms x.1 x.2)] := by
          unfold UccAlg.tempElems UccAlg.poolAt
          simp only [e, except_ok_bind, hs, Bool.false_eq_true, if_false, pure, Except.pure]
        rw [List.zip_cons_cons, List.foldlM_cons, e1]
        simp only [except_ok_bind, pure, Except.pure] at ih ⊢
        rw [ih, List.zipWith_cons_cons, List.append_assoc]; rfl
  rw [key _ _ ts [] h, List.nil_append]

theorem lat_bound {m : ℕ} {c : ℂ} (h : Lat m c) (h0 : c ≠ 0) : 1 ≤ ‖c‖ * 2 ^ m := by
  obtain ⟨a, b, h⟩ := h
  have hn : ‖c‖ * 2 ^ m = ‖((a : ℂ) + b * Complex.I)‖ := by rw [← h, norm_mul, norm_pow]; norm_num
  have hs : ‖((a : ℂ) + b * Complex.I)‖ ^ 2 = ((a ^ 2 + b ^ 2 : ℤ) : ℝ) := by
    have := Complex.sq_norm ((a : ℂ) + b * Complex.I)
    rw [this, Complex.normSq_apply]
    simp; ring
  rw [hn]
  by_contra hlt
  have hsq : ((a ^ 2 + b ^ 2 : ℤ) : ℝ) < 1 := by
    rw [← hs]; nlinarith [norm_nonneg ((a : ℂ) + b * Complex.I)]
  have hi : a ^ 2 + b ^ 2 < 1 := by exact_mod_cast hsq
  have ha : a = 0 := by nlinarith [sq_nonneg a, sq_nonneg b]
  have hb : b = 0 := by nlinarith [sq_nonneg a, sq_nonneg b]
  subst ha; subst hb
  have : c * 2 ^ m = 0 := by rw [h]; simp
  rcases mul_eq_zero.1 this with h | h
  · exact h0 h
  · exact absurd h (pow_ne_zero _ two_ne_zero)

/-- a group of terms that `trotterize` exponentiates exactly on `n` qubits -/
structure ExpGroup (n : ℕ) (B : QubitOperator) : Prop where
  can : ∀ x ∈ B, x.2.Canonical
  tgt : ∀ x ∈ B, ∀ g ∈ x.2, g.target < n
  re : ∀ x ∈ B, x.1.re = 0
  ne : ∀ x ∈ B, x.2 ≠ []
  comm : ∀ x ∈ B, ∀ y ∈ B, Commute x.2.op y.2.op

/-- all Pauli terms of an excitation have the same modulus -/
theorem exc_flat {n : ℕ} {c a : List ℕ} (h : Excit n c a) {q : Bool} {Q : QubitOperator} (nQ : Q.Normal) (hQ : Q.opLR = kappa q c a) (h0 : ∀ t ∈ Q, t.1 ≠ 0) :
    ∀ u ∈ Q, ‖u.1‖ * 2 ^ (c ++ a).toFinset.card = 2 := by
  have h2 := support_strings nQ.canonical (Normal.nodup nQ) (n := n) (by rw [hQ]; exact acts_kappa q h.bound_c h.bound_a)
  refine kappa_flat nQ.canonical (Normal.nodup nQ) q c a h0 hQ (fun t ht => h2 t ht (h0 t ht)) fun p hp => ?_
  rcases List.mem_append.1 hp with hp | hp
  exacts [h.bound_c p hp, h.bound_a p hp]

theorem exc_group {o : DescSort} {n : ℕ} {c a : List ℕ} (h : Excit n c a) (hr : c.length ≤ 19) {q : Bool} {t : ℝ} {B : QubitOperator}
    (hB : GroupOf o q ((t : ℂ), excTerms c a) B) :
    ExpGroup n B ∧ B.opLR = (usedAmp (c, a) t : ℂ) • kappa q c a := by
  obtain ⟨Q, R, D, e, hop, hD, hnd, hBc, hp⟩ := hB
  obtain ⟨Q', e', nQ, hQ, hl⟩ := jw_exc o h hr q
  simp only at e hop hp
  rw [e] at e'; cases e'
  have hs : RealSkew (lmask (caList c a)) Q.opLR := by rw [hQ]; exact kappa_skew q c a
  have h0 : ∀ t ∈ Q, t.1 ≠ 0 := fun t ht => ne_zero_of_gt (hl t ht).1
  have h1 := skew_strings nQ.canonical (Normal.nodup nQ) hs
  have h2 := support_strings nQ.canonical (Normal.nodup nQ) (n := n) (by rw [hQ]; exact acts_kappa q h.bound_c h.bound_a)
  have hmem : ∀ x ∈ B, ∃ u ∈ Q, x = (u.1 * (t : ℂ), u.2) := by
    intro x hx
    have := hp.mem_iff.1 (List.mem_append_left D hx)
    obtain ⟨u, hu, rfl⟩ := List.mem_map.1 this
    exact ⟨u, hu, rfl⟩
  refine ⟨⟨fun x hx => (hBc x hx).1, ?_, ?_, ?_, ?_⟩, ?_⟩
  · intro x hx; obtain ⟨u, hu, rfl⟩ := hmem x hx; exact h2 u hu (h0 u hu)
  · intro x hx; obtain ⟨u, hu, rfl⟩ := hmem x hx
    simp [(h1 u hu (h0 u hu)).1]
  · intro x hx; obtain ⟨u, hu, rfl⟩ := hmem x hx; exact odd_ne_nil (h1 u hu (h0 u hu)).2.2
  · intro x hx y hy
    obtain ⟨u, hu, rfl⟩ := hmem x hx
    obtain ⟨v, hv, rfl⟩ := hmem y hy
    simp only
    rw [(nQ.canonical u hu).op_eq, (nQ.canonical v hv).op_eq]
    obtain ⟨_, a1, a2⟩ := h1 u hu (h0 u hu)
    obtain ⟨_, b1, b2⟩ := h1 v hv (h0 v hv)
    exact odd_commute (nQ.canonical u hu) (nQ.canonical v hv) a1 b1 a2 b2
  · rw [hQ] at hop
    by_cases hres : AmpResolved (c, a) t
    · have hz : ∀ x ∈ D, x.1 = 0 := by
        intro x hx
        have := hp.mem_iff.1 (List.mem_append_right B hx)
        obtain ⟨u, hu, rfl⟩ := List.mem_map.1 this
        rcases hres with rfl | hres
        · simp
        · exfalso
          have hb := exc_flat h nQ hQ h0 u hu
          have hsm := (hD.2 _ hx).2
          simp only [norm_mul, Complex.norm_real, Real.norm_eq_abs] at hsm
          have h4 : (0 : ℝ) < 2 ^ (c ++ a).toFinset.card := by positivity
          simp only at hres
          nlinarith [norm_nonneg u.1, abs_nonneg t]
      have hD0 : QubitOperator.opLR D = 0 := by
        unfold QubitOperator.opLR
        refine List.sum_eq_zero fun y hy => ?_
        obtain ⟨x, hx, rfl⟩ := List.mem_map.1 hy
        rw [hz x hx, zero_smul]
      unfold usedAmp
      rw [if_pos hres, hop, hD0, add_zero]
    · have hB0 : B = [] := by
        rw [List.eq_nil_iff_forall_not_mem]
        intro x hx
        have hbig := (hBc x hx).2
        obtain ⟨u, hu, rfl⟩ := hmem x hx
        have hb := exc_flat h nQ hQ h0 u hu
        simp only [norm_mul, Complex.norm_real, Real.norm_eq_abs] at hbig
        have h4 : (0 : ℝ) < 2 ^ (c ++ a).toFinset.card := by positivity
        unfold AmpResolved at hres
        rw [not_or, not_lt] at hres
        have h5 := hres.2
        simp only at h5
        nlinarith [norm_nonneg u.1, abs_nonneg t]
      unfold usedAmp
      rw [if_neg hres, hB0]
      simp [QubitOperator.opLR]

/-- the exponentials of the terms of a group multiply to the exponential of the group -/
theorem group_exp {n : ℕ} {B : QubitOperator} (h : ExpGroup n B) (z : ℂ) {Us : List Op}
    (hU : List.Forall₂ (fun (t : ℂ × Circuit) U => IsExp ((1 * t.1 / z) • t.2.op) U) B Us) : IsExp ((1 / z) • B.opLR) (applyInOrder Us) := by
  have hL : List.Forall₂ (fun (t : ℂ × Op) U => IsExp (t.1 • t.2) U) (B.map fun t => (1 * t.1 / z, t.2.op)) Us := List.forall₂_map_left_iff.2 hU
  have := (isExp_applyInOrder (B.map fun t => (1 * t.1 / z, t.2.op)) Us (by
      intro t ht
      obtain ⟨u, hu, rfl⟩ := List.mem_map.1 ht
      exact pauliString_sq (canonical_trotter (h.can u hu)).1) (by
      intro s hs t ht
      obtain ⟨u, hu, rfl⟩ := List.mem_map.1 hs
      obtain ⟨v, hv, rfl⟩ := List.mem_map.1 ht
      exact h.comm u hu v hv) hL).1
  convert! this using 1
  rw [← op_eq_opLR_canonical h.can, QubitOperator.op, List.smul_sum]
  congr 1
  rw [List.map_map, List.map_map]
  refine List.map_congr_left fun t _ => ?_
  simp only [Function.comp_def, smul_smul]
  congr 1; ring

theorem groups_exp {n : ℕ} {Bs : List QubitOperator} (h : ∀ B ∈ Bs, ExpGroup n B) (z : ℂ) {Us : List Op}
    (hU : List.Forall₂ (fun (t : ℂ × Circuit) U => IsExp ((1 * t.1 / z) • t.2.op) U) Bs.flatten Us) :
    ∃ Ws, List.Forall₂ (fun (B : QubitOperator) W => IsExp ((1 / z) • B.opLR) W) Bs Ws ∧ applyInOrder Us = applyInOrder Ws := by
  induction Bs generalizing Us with
  | nil => cases hU; exact ⟨[], .nil, rfl⟩
  | cons B Bs ih =>
    rw [List.flatten_cons] at hU
    obtain ⟨l1, l2, h1, h2, rfl⟩ := forall₂_append_left hU
    obtain ⟨Ws, h3, h4⟩ := ih (fun B hB => h B (by simp [hB])) h2
    refine ⟨applyInOrder l1 :: Ws, .cons (group_exp (h B (by simp)) z h1) h3, ?_⟩
    rw [applyInOrder_append, h4]; rfl

/-- one factor of the ansatz: `exp(t κ / N)` with the used amplitude `t` -/
def AnsatzFactor (q : Bool) (N : ℤ) (p : ℝ × List ℕ × List ℕ) (W : Op) : Prop :=
  IsExp ((1 / (N : ℂ)) • (usedAmp p.2 p.1 : ℂ) • kappa q p.2.1 p.2.2) W

theorem selects_sound {A : UccAlg} {xs : List (List ℕ × List ℕ)} (h : A.Selects xs) : ∀ x ∈ xs, Excit A.nqb x.1 x.2 ∧ x.1.length ≤ 19 := by
  unfold UccAlg.Selects at h
  revert h
  generalize A.tops = l
  intro h
  induction h with
  | nil => simp
  | cons hx _ ih =>
    intro y hy
    rcases List.mem_cons.1 hy with rfl | hy
    · obtain ⟨_, _, h⟩ := hx; exact h
    · exact ih y hy

theorem ansatz_groups (o : DescSort) (so : SortOracle) {n : ℕ} (q : Bool) {xs : List (List ℕ × List ℕ)}
    (hx : ∀ x ∈ xs, Excit n x.1 x.2 ∧ x.1.length ≤ 19) (ts : List ℝ) :
    ∃ Bs, SQOpPool.getQubitOperator o so
        { terms := List.zipWith (fun (t : ℝ) (x : List ℕ × List ℕ) => ((t : ℂ), excTerms x.1 x.2)) ts xs } "commuting_grp_lex" true q = .ok Bs.flatten ∧
      List.Forall₂ (fun (p : ℝ × List ℕ × List ℕ) B => GroupOf o q ((p.1 : ℂ), excTerms p.2.1 p.2.2) B) (List.zip ts xs) Bs := by
  have e : List.zipWith (fun (t : ℝ) (x : List ℕ × List ℕ) => ((t : ℂ), excTerms x.1 x.2)) ts xs =
      (List.zip ts xs).map fun p => ((p.1 : ℂ), excTerms p.2.1 p.2.2) := by
    rw [List.zip, List.map_zipWith]
  rw [e]
  obtain ⟨Bs, h1, h2⟩ := C68_commuting_grp_lex o so { terms := (List.zip ts xs).map fun p => ((p.1 : ℂ), excTerms p.2.1 p.2.2) } true q (by
    intro t ht
    obtain ⟨p, hp, rfl⟩ := List.mem_map.1 ht
    obtain ⟨h, hr⟩ := hx p.2 (List.of_mem_zip hp).2
    refine ⟨exc_distinct h, fun x hx => ?_⟩
    have := h.rank
    rcases exc_mem hx with ⟨_, e⟩ | ⟨_, e⟩ <;> rw [e] <;> simp only <;> omega)
  exact ⟨Bs, h1, List.forall₂_map_left_iff.1 h2⟩

/-- C70: with a pool of excitations, the ansatz circuit is `N` times the ordered product of the factors
`exp(t_μ κ_μ / N)`, where an amplitude so small that the Pauli terms of `t κ` are at most 1e-12 counts as zero; it acts on the algorithm's qubits. -/
theorem C70_ansatz (o : DescSort) (so : SortOracle) (A : UccAlg) (xs : List (List ℕ × List ℕ)) (h : A.Selects xs) (hs : A.saSD = false)
    (hc : A.compact = false) (hN : 1 ≤ A.trotterNumber) (ts : List ℝ) :
    ∃ C Ws, A.ansatzCircuit o so (some ts) = .ok C ∧ List.Forall₂ (AnsatzFactor A.qubitExc A.trotterNumber) (List.zip ts xs) Ws ∧
      C.op = applyInOrder Ws ^ A.trotterNumber.toNat ∧ (∀ g ∈ C, ApiGate g ∧ ExactGate g) ∧ C.Fits A.nqb := by
  have hx := selects_sound h
  obtain ⟨Bs, e1, hB⟩ := ansatz_groups o so A.qubitExc hx ts
  have hG : List.Forall₂ (fun (p : ℝ × List ℕ × List ℕ) (B : QubitOperator) => ExpGroup A.nqb B ∧
      B.opLR = (usedAmp p.2 p.1 : ℂ) • kappa A.qubitExc p.2.1 p.2.2) (List.zip ts xs) Bs := by
    have : List.Forall₂ (fun (p : ℝ × List ℕ × List ℕ) B => p ∈ List.zip ts xs ∧ GroupOf o A.qubitExc ((p.1 : ℂ), excTerms p.2.1 p.2.2) B) (List.zip ts xs) Bs := by
      rw [List.forall₂_and_left]; exact ⟨fun p hp => hp, hB⟩
    refine this.imp fun p B ⟨hp, hg⟩ => ?_
    obtain ⟨h, hr⟩ := hx p.2 (List.of_mem_zip hp).2
    exact exc_group h hr hg
  have hE : ∀ B ∈ Bs, ExpGroup A.nqb B := by
    clear e1 hB
    revert hG
    generalize List.zip ts xs = l
    intro hG
    induction hG with
    | nil => simp
    | cons hx _ ih => intro B hB; rcases List.mem_cons.1 hB with rfl | hB; exacts [hx.1, ih B hB]
  have hall : ∀ t ∈ Bs.flatten, ∃ B ∈ Bs, t ∈ B := fun t ht => List.mem_flatten.1 ht
  obtain ⟨C, ph, Us, h1, h2, h3, h4⟩ := trotterize_fits A.nqb Bs.flatten 1 A.trotterNumber 1 le_rfl (by omega)
    (fun t ht => by obtain ⟨B, hB, ht⟩ := hall t ht; exact canonical_trotter ((hE B hB).can t ht))
    (fun t ht => by obtain ⟨B, hB, ht⟩ := hall t ht; exact (hE B hB).tgt t ht)
    (fun t ht => by obtain ⟨B, hB, ht⟩ := hall t ht; rw [one_mul]; exact (hE B hB).re t ht)
  have hph : ph = 1 := trotterize_phase (fun t ht => by obtain ⟨B, hB, ht⟩ := hall t ht; exact (hE B hB).ne t ht) h1
  subst hph
  obtain ⟨Ws, h5, h6⟩ := groups_exp hE _ h2
  refine ⟨C, Ws, ?_, ?_, ?_, fun g hg => (h4 g hg).1, fun g hg => (h4 g hg).2⟩
  · unfold UccAlg.ansatzCircuit UccAlg.ansatzWith
    rw [Option.getD_some, tempPool_eq h hs]
    simp only [except_ok_bind, hc, Bool.false_eq_true, if_false, e1]
    rw [h1]
    simp [except_ok_bind, pure, Except.pure]
  · clear h2 h3 h6 hE hB e1 h1 hall h4
    revert hG
    generalize List.zip ts xs = l
    intro hG
    induction h5 generalizing l with
    | nil => cases hG; exact .nil
    | cons hW _ ih =>
      cases hG with
      | cons hp hG =>
        refine .cons ?_ (ih _ hG)
        unfold AnsatzFactor
        rw [← hp.2]
        exact hW
  · rw [← h6, ← h3, one_smul]

/-- the exponentials `exp(s κ)` of the excitations -/
def Flows (q : Bool) (xs : List (List ℕ × List ℕ)) (Vs : List (ℝ → Op)) : Prop :=
  List.Forall₂ (fun (x : List ℕ × List ℕ) V => IsFlow (kappa q x.1 x.2) V) xs Vs

theorem flows_exist (q : Bool) (xs : List (List ℕ × List ℕ)) : ∃ Vs, Flows q xs Vs := by
  induction xs with
  | nil => exact ⟨[], .nil⟩
  | cons x xs ih =>
    obtain ⟨Vs, h⟩ := ih
    obtain ⟨k, hK, ha⟩ := kappa_skew q x.1 x.2
    exact ⟨skewExp _ k :: Vs, .cons (fun s => isExp_skew hK ha s) h⟩

/-- C70: if the amplitudes are resolved, the ansatz circuit is exactly the disentangled UCC operator: the factors
`exp(t_μ κ_μ / N)` in the order of `tops`, the whole repeated `N` times. -/
theorem C70_exact (o : DescSort) (so : SortOracle) (A : UccAlg) (xs : List (List ℕ × List ℕ)) (h : A.Selects xs) (hs : A.saSD = false)
    (hc : A.compact = false) (hN : 1 ≤ A.trotterNumber) (ts : List ℝ) (hr : ∀ p ∈ List.zip ts xs, AmpResolved p.2 p.1)
    (Vs : List (ℝ → Op)) (hV : Flows A.qubitExc xs Vs) :
    ∃ C, A.ansatzCircuit o so (some ts) = .ok C ∧ C.op = uccOp Vs (ts.map fun t => t / A.trotterNumber) ^ A.trotterNumber.toNat ∧
      (∀ g ∈ C, ApiGate g ∧ ExactGate g) ∧ C.Fits A.nqb := by
  obtain ⟨C, Ws, h1, h2, h3, h4, h5⟩ := C70_ansatz o so A xs h hs hc hN ts
  refine ⟨C, h1, ?_, h4, h5⟩
  rw [h3]
  congr 1
  unfold uccOp
  congr 1
  clear h3 h1 h
  unfold Flows at hV
  induction hV generalizing ts Ws with
  | nil => rw [List.zip_nil_right] at h2; cases h2; simp
  | @cons x V xs Vs hV _ ih =>
    cases ts with
    | nil => cases h2; simp
    | cons t ts =>
      rw [List.zip_cons_cons] at h2
      cases h2 with
      | cons hW h2 =>
        rw [List.map_cons, List.zipWith_cons_cons, ← ih ts (fun p hp => hr p (by simp [hp])) _ h2]
        congr 1
        have hE := hW
        unfold AnsatzFactor usedAmp at hE
        rw [if_pos (hr (t, x) (by simp)), smul_smul] at hE
        refine hE.unique ?_
        have := hV (t / A.trotterNumber)
        convert! this using 2
        push_cast; ring

theorem usedAmp_resolved (x : List ℕ × List ℕ) (t : ℝ) : AmpResolved x (usedAmp x t) := by
  unfold usedAmp
  split
  · assumption
  · exact .inl rfl

theorem usedAmps_resolved (xs : List (List ℕ × List ℕ)) (ts : List ℝ) : ∀ p ∈ List.zip (usedAmps xs ts) xs, AmpResolved p.2 p.1 := by
  unfold usedAmps
  induction xs generalizing ts with
  | nil => simp
  | cons x xs ih =>
    cases ts with
    | nil => simp
    | cons t ts =>
      intro p hp
      rw [List.zipWith_cons_cons, List.zip_cons_cons] at hp
      rcases List.mem_cons.1 hp with rfl | hp
      · exact usedAmp_resolved x t
      · exact ih ts p hp

theorem usedAmps_length {xs : List (List ℕ × List ℕ)} {ts : List ℝ} (h : ts.length = xs.length) : (usedAmps xs ts).length = ts.length := by
  unfold usedAmps
  rw [List.length_zipWith, h, min_self]

/-- amplitudes that are resolved are used as they are -/
theorem usedAmps_eq {xs : List (List ℕ × List ℕ)} {ts : List ℝ} (h : ts.length ≤ xs.length) (hr : ∀ p ∈ List.zip ts xs, AmpResolved p.2 p.1) : usedAmps xs ts = ts := by
  unfold usedAmps
  induction xs generalizing ts with
  | nil =>
    have : ts = [] := List.length_eq_zero_iff.1 (by simpa using h)
    simp [this]
  | cons x xs ih =>
    cases ts with
    | nil => simp
    | cons t ts =>
      rw [List.zipWith_cons_cons, ih (by simpa using h) fun p hp => hr p (by simp [hp])]
      unfold usedAmp
      rw [if_pos (hr (t, x) (by simp))]

/-- a pool element contributes to the qubit operator as with its used amplitude -/
theorem groupStep_used (o : DescSort) (so : SortOracle) (combine q : Bool) {n : ℕ} {c a : List ℕ} (h : Excit n c a) (hr : c.length ≤ 19) (t : ℝ) (parent : QubitOperator) :
    SQOpPool.groupStep o so combine q parent ((t : ℂ), excTerms c a) = SQOpPool.groupStep o so combine q parent ((usedAmp (c, a) t : ℂ), excTerms c a) := by
  by_cases hu : AmpResolved (c, a) t
  · unfold usedAmp; rw [if_pos hu]
  have hl : ∀ x ∈ excTerms c a, x.2.1.length + x.2.2.length ≤ 39 := by
    intro x hx
    have := h.rank
    rcases exc_mem hx with ⟨_, e⟩ | ⟨_, e⟩ <;> rw [e] <;> simp only <;> omega
  obtain ⟨Q', e', nQ, hQ, hlq⟩ := jw_exc o h hr q
  have h0 : ∀ t ∈ Q', t.1 ≠ 0 := fun t ht => ne_zero_of_gt (hlq t ht).1
  have key : ∀ s : ℝ, 2 * |s| ≤ 1e-12 * 2 ^ (c ++ a).toFinset.card → SQOpPool.groupStep o so combine q parent ((s : ℂ), excTerms c a) = .ok parent := by
    intro s hs
    obtain ⟨Q, R, B, e, _, _, hp, hB⟩ := groupStep_ok o so combine q ((s : ℂ), excTerms c a) (exc_distinct h) hl
    simp only at e
    rw [e] at e'; cases e'
    have hempty : ((Q'.multCoeffs (s : ℂ)).filter fun t => decide (‖t.1‖ > 1e-12)) = [] := by
      rw [List.filter_eq_nil_iff]
      intro x hx
      obtain ⟨u, hu, rfl⟩ := List.mem_map.1 hx
      have hb := exc_flat h nQ hQ h0 u hu
      simp only [norm_mul, Complex.norm_real, Real.norm_eq_abs, gt_iff_lt, decide_eq_true_eq, not_lt]
      have h4 : (0 : ℝ) < 2 ^ (c ++ a).toFinset.card := by positivity
      have : ‖u.1‖ * |s| * 2 ^ (c ++ a).toFinset.card ≤ 1e-12 * 2 ^ (c ++ a).toFinset.card := by
        calc ‖u.1‖ * |s| * 2 ^ (c ++ a).toFinset.card = (‖u.1‖ * 2 ^ (c ++ a).toFinset.card) * |s| := by ring
          _ = 2 * |s| := by rw [hb]
          _ ≤ _ := hs
      exact le_of_mul_le_mul_right this h4
    simp only [hempty] at hp
    rw [hB parent, List.perm_nil.1 hp, List.append_nil]
  unfold AmpResolved at hu
  rw [not_or, not_lt] at hu
  rw [key t hu.2]
  have hz : usedAmp (c, a) t = 0 := by
    unfold usedAmp AmpResolved
    rw [if_neg (by rw [not_or, not_lt]; exact hu)]
  rw [hz, key 0 (by rw [abs_zero, mul_zero]; positivity)]

/-- C70: the ansatz circuit is that of the used amplitudes: an amplitude so small that the Pauli terms of `t κ` are at most 1e-12 counts as zero, every other one counts as it is. -/
theorem C70_used (o : DescSort) (so : SortOracle) (A : UccAlg) (xs : List (List ℕ × List ℕ)) (h : A.Selects xs) (hs : A.saSD = false) (hc : A.compact = false) (ts : List ℝ) :
    A.ansatzCircuit o so (some ts) = A.ansatzCircuit o so (some (usedAmps xs ts)) := by
  have hx := selects_sound h
  unfold UccAlg.ansatzCircuit UccAlg.ansatzWith
  rw [Option.getD_some, Option.getD_some, tempPool_eq h hs, tempPool_eq h hs]
  simp only [except_ok_bind, hc, Bool.false_eq_true, if_false]
  have hg : SQOpPool.getQubitOperator o so { terms := List.zipWith (fun (t : ℝ) (x : List ℕ × List ℕ) => ((t : ℂ), excTerms x.1 x.2)) ts xs } "commuting_grp_lex" true A.qubitExc =
      SQOpPool.getQubitOperator o so { terms := List.zipWith (fun (t : ℝ) (x : List ℕ × List ℕ) => ((t : ℂ), excTerms x.1 x.2)) (usedAmps xs ts) xs }
        "commuting_grp_lex" true A.qubitExc := by
    unfold SQOpPool.getQubitOperator
    rw [if_neg (by decide), if_pos rfl, if_neg (by decide), if_pos rfl]
    unfold usedAmps
    clear h
    generalize ([] : QubitOperator) = acc
    induction xs generalizing ts acc with
    | nil => simp
    | cons x xs ih =>
      cases ts with
      | nil => simp
      | cons t ts =>
        simp only [List.zipWith_cons_cons, List.foldlM_cons]
        rw [groupStep_used o so true A.qubitExc (hx x (by simp)).1 (hx x (by simp)).2 t acc]
        congr 1
        funext b
        exact ih ts (fun y hy => hx y (by simp [hy])) b
  rw [hg]

/-- C70: for all amplitudes, the ansatz circuit is exactly the disentangled UCC operator of the used amplitudes. -/
theorem C70_exact_used (o : DescSort) (so : SortOracle) (A : UccAlg) (xs : List (List ℕ × List ℕ)) (h : A.Selects xs) (hs : A.saSD = false)
    (hc : A.compact = false) (hN : 1 ≤ A.trotterNumber) (ts : List ℝ) (Vs : List (ℝ → Op)) (hV : Flows A.qubitExc xs Vs) :
    ∃ C, A.ansatzCircuit o so (some ts) = .ok C ∧ C.op = uccOp Vs ((usedAmps xs ts).map fun t => t / A.trotterNumber) ^ A.trotterNumber.toNat ∧
      (∀ g ∈ C, ApiGate g ∧ ExactGate g) ∧ C.Fits A.nqb := by
  rw [C70_used o so A xs h hs hc ts]
  exact C70_exact o so A xs h hs hc hN _ (usedAmps_resolved xs ts) Vs hV

/-- all that is computed from the circuit of the amplitudes is that of the used amplitudes -/
theorem C70_used_energy (o : DescSort) (so : SortOracle) (par : Option Schedule) (A : UccAlg) (xs : List (List ℕ × List ℕ)) (h : A.Selects xs) (hs : A.saSD = false)
    (hc : A.compact = false) (ts : List ℝ) : A.buildUvqc o so (some ts) = A.buildUvqc o so (some (usedAmps xs ts)) ∧
      A.energyFeval o so par ts = A.energyFeval o so par (usedAmps xs ts) := by
  have : A.buildUvqc o so (some ts) = A.buildUvqc o so (some (usedAmps xs ts)) := by
    unfold UccAlg.buildUvqc
    rw [C70_used o so A xs h hs hc ts]
  refine ⟨this, ?_⟩
  unfold UccAlg.energyFeval
  rw [this]

/-- the objects an algorithm run needs: a well-formed initial computer on the algorithm's qubits, a state preparation circuit
and a Hamiltonian on those qubits made of exactly simulated gates (all Pauli gates are) -/
structure UccAlg.Ready (A : UccAlg) : Prop where
  wf : A.initialComputer.WF
  size : A.initialComputer.nqubit = A.nqb
  prep : A.uprep.Fits A.nqb ∧ ∀ g ∈ A.uprep, ExactGate g
  ham : ∀ t ∈ A.ham, t.2.Fits A.nqb ∧ ∀ g ∈ t.2, ExactGate g

/-- the reference state `Uprep |initial⟩` -/
noncomputable def UccAlg.reference (A : UccAlg) : St := A.uprep.op A.initialComputer.psi

/-- from the ansatz circuit to the state: what `build_Uvqc` and `apply_circuit` make of an exactly simulated ansatz circuit -/
theorem build_of_ansatz (o : DescSort) (so : SortOracle) (A : UccAlg) (ts : List ℝ) (hR : A.Ready) {C : Circuit} {W : Op}
    (h1 : A.ansatzCircuit o so (some ts) = .ok C) (h2 : C.op = W) (h3 : ∀ g ∈ C, ExactGate g) (h4 : C.Fits A.nqb) :
    ∃ U q, A.buildUvqc o so (some ts) = .ok U ∧ A.initialComputer.applyCircuit U = .ok q ∧ q.WF ∧ q.nqubit = A.nqb ∧ q.psi = W A.reference := by
  have hfit : Circuit.Fits A.nqb (A.uprep ++ C) := by
    intro g hg
    rcases List.mem_append.1 hg with hg | hg
    · exact hR.prep.1 g hg
    · exact h4 g hg
  obtain ⟨q, e1, e2, e3, e4⟩ := applyCircuit_exact (q := A.initialComputer) (A.uprep ++ C) hR.wf (by rw [hR.size]; exact hfit) (by
    intro g hg
    rcases List.mem_append.1 hg with hg | hg
    · exact hR.prep.2 g hg
    · exact h3 g hg)
  refine ⟨A.uprep ++ C, q, ?_, e1, e2, e3.trans hR.size, ?_⟩
  · unfold UccAlg.buildUvqc
    rw [h1, except_ok_bind]
    simp only [addCircuit_eq, List.nil_append, pure, Except.pure]
  · rw [e4, Circuit.op_append, h2]
    rfl

theorem build_ok (o : DescSort) (so : SortOracle) (A : UccAlg) (xs : List (List ℕ × List ℕ)) (h : A.Selects xs) (hs : A.saSD = false)
    (hc : A.compact = false) (hN : A.trotterNumber = 1) (ts : List ℝ) (hr : ∀ p ∈ List.zip ts xs, AmpResolved p.2 p.1)
    (Vs : List (ℝ → Op)) (hV : Flows A.qubitExc xs Vs) (hR : A.Ready) :
    ∃ U q, A.buildUvqc o so (some ts) = .ok U ∧ A.initialComputer.applyCircuit U = .ok q ∧ q.WF ∧ q.nqubit = A.nqb ∧ q.psi = uccOp Vs ts A.reference := by
  obtain ⟨C, h1, h2, h3, h4⟩ := C70_exact o so A xs h hs hc (by omega) ts hr Vs hV
  refine build_of_ansatz o so A ts hR h1 ?_ (fun g hg => (h3 g hg).2) h4
  rw [h2, hN]
  have : ts.map (fun t => t / ((1 : ℤ) : ℝ)) = ts := by simp
  rw [this]
  show uccOp Vs ts ^ 1 = _
  rw [pow_one]

/-- C70: `energy_feval(params)` is the energy of the disentangled UCC state. -/
theorem C70_energy (o : DescSort) (so : SortOracle) (A : UccAlg) (xs : List (List ℕ × List ℕ)) (h : A.Selects xs) (hs : A.saSD = false)
    (hc : A.compact = false) (hN : A.trotterNumber = 1) (ts : List ℝ) (hr : ∀ p ∈ List.zip ts xs, AmpResolved p.2 p.1)
    (Vs : List (ℝ → Op)) (hV : Flows A.qubitExc xs Vs) (hR : A.Ready) :
    A.energyFeval o so none ts = .ok (uccEnergy A.nqb A.ham.op A.reference Vs ts) := by
  obtain ⟨U, q, e1, e2, w, n, p⟩ := build_ok o so A xs h hs hc hN ts hr Vs hV hR
  obtain ⟨q', e3, _⟩ := C29_direct_op q A.ham w (by rw [n]; exact hR.ham)
  unfold UccAlg.energyFeval UccAlg.measureEnergy
  rw [e1, except_ok_bind, Option.getD_some, e2, except_ok_bind, e3, except_ok_bind]
  simp only [pure, Except.pure, uccEnergy, energy, n, p]

/-- C70: the same for the parallel build, if every string of the Hamiltonian has an even number of Y. -/
theorem C70_energy_parallel (o : DescSort) (so : SortOracle) (sch : Schedule) (A : UccAlg) (xs : List (List ℕ × List ℕ)) (h : A.Selects xs) (hs : A.saSD = false)
    (hc : A.compact = false) (hN : A.trotterNumber = 1) (ts : List ℝ) (hr : ∀ p ∈ List.zip ts xs, AmpResolved p.2 p.1)
    (Vs : List (ℝ → Op)) (hV : Flows A.qubitExc xs Vs) (hR : A.Ready) (h0 : 1 ≤ A.nqb) (hH : ∀ t ∈ A.ham, t.2.PauliString A.nqb ∧ Even t.2.numY) :
    A.energyFeval o so (some sch) ts = .ok (uccEnergy A.nqb A.ham.op A.reference Vs ts) := by
  obtain ⟨U, q, e1, e2, w, n, p⟩ := build_ok o so A xs h hs hc hN ts hr Vs hV hR
  obtain ⟨q', _, e3⟩ := C29_builds_agree_partial q sch A.ham w (by omega) (by rw [n]; exact hH)
  unfold UccAlg.energyFeval UccAlg.measureEnergy
  rw [e1, except_ok_bind, Option.getD_some, e2, except_ok_bind, e3, except_ok_bind]
  simp only [pure, Except.pure, uccEnergy, energy, n, p]

/-- C70: for all amplitudes, `energy_feval` is the energy of the disentangled UCC state of the used amplitudes, in the serial build and, if every string of the Hamiltonian has an
even number of Y, in the parallel build. -/
theorem C70_energy_used (o : DescSort) (so : SortOracle) (A : UccAlg) (xs : List (List ℕ × List ℕ)) (h : A.Selects xs) (hs : A.saSD = false)
    (hc : A.compact = false) (hN : A.trotterNumber = 1) (ts : List ℝ) (Vs : List (ℝ → Op)) (hV : Flows A.qubitExc xs Vs) (hR : A.Ready) :
    A.energyFeval o so none ts = .ok (uccEnergy A.nqb A.ham.op A.reference Vs (usedAmps xs ts)) ∧
      ∀ sch, 1 ≤ A.nqb → (∀ t ∈ A.ham, t.2.PauliString A.nqb ∧ Even t.2.numY) →
        A.energyFeval o so (some sch) ts = .ok (uccEnergy A.nqb A.ham.op A.reference Vs (usedAmps xs ts)) := by
  have hr := usedAmps_resolved xs ts
  refine ⟨?_, fun sch h0 hH => ?_⟩
  · rw [(C70_used_energy o so none A xs h hs hc ts).2]
    exact C70_energy o so A xs h hs hc hN _ hr Vs hV hR
  · rw [(C70_used_energy o so (some sch) A xs h hs hc ts).2]
    exact C70_energy_parallel o so sch A xs h hs hc hN _ hr Vs hV hR h0 hH

end QF
