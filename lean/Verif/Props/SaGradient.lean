import Verif.Props.SaAnsatz
import Verif.Props.UccGradient
import Verif.Props.CompactMain
import Verif.Lemmas.Frozen

/-!
C71 for spin-adapted pools: `measure_gradient` with `pool_type = "sa_SD"`, abc/uccvqeabc.py:208-224.
-/
namespace QF

open SQOperator (DescSort jwTransform)
open QubitOperator (SortOracle)

/-! ### commuting excitations -/

theorem kappa_cube (q : Bool) {c a : List ℕ} (h : (c ++ a).Nodup) (hne : c ≠ [] ∨ a ≠ []) : kappa q c a * kappa q c a * kappa q c a = -kappa q c a := by
  have hV : ∀ I, Reached c a I → ¬ Reached c a (flipAll (c ++ a) I) := by
    intro I h1 h2
    rw [reached_flip h] at h2
    rcases hne with hne | hne
    · obtain ⟨p, hp⟩ := List.exists_mem_of_ne_nil _ hne
      have := h1.1 p hp; rw [h2.1 p hp] at this; cases this
    · obtain ⟨p, hp⟩ := List.exists_mem_of_ne_nil _ hne
      have := h1.2 p hp; rw [h2.2 p hp] at this; cases this
  cases q
  · exact (excite_powers (flipAll_flipAll h) (lsign_sq (caList c a)) hV (fun ψ I => (strings_apply h ψ I).1) (fun ψ I => (strings_apply h ψ I).2.1)).2.2
  · exact (excite_powers (flipAll_flipAll h) (s := fun _ => 1) (fun _ => by simp) hV (fun ψ I => (strings_apply h ψ I).2.2.1)
      (fun ψ I => (strings_apply h ψ I).2.2.2)).2.2

theorem flow_commute {K X : Op} (hK : K * K * K = -K) {V : ℝ → Op} (hV : IsFlow K V) (h : Commute K X) (s : ℝ) : Commute (V s) X := by
  rw [(hV s).unique (isExp_cubic hK s)]
  exact (((Commute.one_left X).add_left (h.smul_left _)).add_left ((h.mul_left h).smul_left _))

/-- the flow of `w κ + K`, for an excitation `κ` that commutes with everything so far -/
theorem flow_comp {n m : ℕ} (hm : m < 2 ^ n) {κ K : Op} (hκ : RealSkew m κ) (hc : κ * κ * κ = -κ) {W V : ℝ → Op} (hW : IsFlow κ W) (w : ℝ) (hV : Flow n K V)
    (h1 : Commute κ K) (h2 : ∀ t, Commute κ (V t)) : Flow n ((w : ℂ) • κ + K) (fun t => V t * W (t * w)) := by
  have hF := skew_flow hm hκ hW
  have hWV : ∀ s t, Commute (W s) (V t) := fun s t => flow_commute hc hW (h2 t) s
  have hWK : ∀ s, Commute (W s) K := fun s => flow_commute hc hW h1 s
  obtain ⟨k, hk, ha⟩ := hκ
  refine ⟨?_, ?_, ?_, ?_, ?_, ?_⟩
  · intro φ ψ
    simp only [LinearMap.add_apply, LinearMap.smul_apply]
    rw [inner_add_right, inner_add_left, inner_smul_right', inner_smul_left', hF.anti, hV.anti, Complex.conj_ofReal]
    ring
  · intro s
    have e1 : V (-s) * W (-s * w) * (V s * W (s * w)) = V (-s) * (W (-s * w) * V s) * W (s * w) := by simp only [mul_assoc]
    rw [e1, (hWV _ _).eq, ← mul_assoc, hV.inv, one_mul, neg_mul, hF.inv]
  · intro s φ ψ
    rw [Module.End.mul_apply, Module.End.mul_apply, hV.unitary, hF.unitary]
  · intro s ψ hψ; exact hV.reg _ _ (hF.reg _ _ hψ)
  · intro ψ hψ I hI
    have a := hF.regK ψ hψ I hI
    have b := hV.regK ψ hψ I hI
    simp [a, b]
  · intro s ψ I
    have hex : ∀ t φ J, W t φ J = (Real.cos (t * k J) : ℂ) * φ J + (Real.sin (t * k J) : ℂ) * φ (J ^^^ m) := by
      intro t φ J; rw [(hW t).unique (isExp_skew hk ha t), skewExp_apply]
    have e : ∀ x, (V x * W (x * w)) ψ I = (Real.cos (x * w * k I) : ℂ) * V x ψ I + (Real.sin (x * w * k I) : ℂ) * V x ψ (I ^^^ m) := by
      intro x
      rw [← (hWV _ _).eq, Module.End.mul_apply, hex]
    simp only [e]
    have hin : HasDerivAt (fun x : ℝ => x * w * k I) (w * k I) s := by
      simpa [mul_assoc] using (hasDerivAt_id s).mul_const (w * k I)
    have dc := ((Real.hasDerivAt_cos (s * w * k I)).comp s hin).ofReal_comp
    have ds := ((Real.hasDerivAt_sin (s * w * k I)).comp s hin).ofReal_comp
    have := (dc.mul (hV.deriv s ψ I)).add (ds.mul (hV.deriv s ψ (I ^^^ m)))
    convert! this using 1
    have t1 : K ((V s * W (s * w)) ψ) I = (Real.cos (s * w * k I) : ℂ) * K (V s ψ) I + (Real.sin (s * w * k I) : ℂ) * K (V s ψ) (I ^^^ m) := by
      rw [← (hWV _ _).eq, ← hex, ← Module.End.mul_apply (W _), (hWK _).eq]; rfl
    have t2 : κ ((V s * W (s * w)) ψ) I = k I * ((Real.cos (s * w * k I) : ℂ) * V s ψ (I ^^^ m) - (Real.sin (s * w * k I) : ℂ) * V s ψ I) := by
      rw [hk, ← (hWV _ _).eq, Module.End.mul_apply, hex, ha, xor_xor_self]
      rw [mul_neg, Real.cos_neg, Real.sin_neg]; push_cast; ring
    simp only [LinearMap.add_apply, LinearMap.smul_apply, Pi.add_apply, Pi.smul_apply, smul_eq_mul, t1, t2]
    simp only [Function.comp_apply]
    push_cast
    ring

/-- the factor of the ansatz for one spin-adapted element: the exponentials of its pieces, one after the other -/
def SaFlow (q : Bool) (ys : List (ℝ × List ℕ × List ℕ)) (V : ℝ → Op) : Prop :=
  ∃ Ws : List (ℝ → Op), List.Forall₂ (fun (y : ℝ × List ℕ × List ℕ) W => IsFlow (kappa q y.2.1 y.2.2) W) ys Ws ∧
    ∀ t, V t = applyInOrder (List.zipWith (fun y W => W (t * y.1)) ys Ws)

/-- `Σ w κ` -/
noncomputable def saGen (q : Bool) (ys : List (ℝ × List ℕ × List ℕ)) : Op := (ys.map fun y => (y.1 : ℂ) • kappa q y.2.1 y.2.2).sum

theorem saFlow_flow {n : ℕ} {q : Bool} : ∀ (ys : List (ℝ × List ℕ × List ℕ)) (V : ℝ → Op), (∀ y ∈ ys, Excit n y.2.1 y.2.2 ∧ (y.2.1 ++ y.2.2).Nodup) →
    (∀ y ∈ ys, ∀ z ∈ ys, Commute (kappa q y.2.1 y.2.2) (kappa q z.2.1 z.2.2)) → SaFlow q ys V →
    Flow n (saGen q ys) V ∧ ∀ X, (∀ y ∈ ys, Commute (kappa q y.2.1 y.2.2) X) → ∀ t, Commute X (V t) := by
  intro ys
  induction ys with
  | nil =>
    rintro V _ _ ⟨Ws, hW, hV⟩
    cases hW
    have e : V = fun _ => 1 := by funext t; rw [hV]; rfl
    subst e
    refine ⟨⟨?_, ?_, ?_, ?_, ?_, ?_⟩, fun X _ t => Commute.one_right X⟩
    · intro φ ψ; simp [saGen, inner]
    · intro s; simp
    · intro s φ ψ; rfl
    · intro s ψ h; exact h
    · intro ψ h I hI; simp [saGen]
    · intro s ψ I; simpa [saGen] using hasDerivAt_const s (ψ I)
  | cons y ys ih =>
    rintro V hx hc ⟨Ws, hW, hV⟩
    cases hW with
    | cons h1 h2 =>
      rename_i W Ws
      obtain ⟨hF, hX⟩ := ih (fun t => applyInOrder (List.zipWith (fun y W => W (t * y.1)) ys Ws)) (fun z hz => hx z (by simp [hz]))
        (fun u hu v hv => hc u (by simp [hu]) v (by simp [hv])) ⟨Ws, h2, fun t => rfl⟩
      have e : V = fun t => applyInOrder (List.zipWith (fun y W => W (t * y.1)) ys Ws) * W (t * y.1) := by
        funext t; rw [hV]; rfl
      have hne : y.2.1 ≠ [] ∨ y.2.2 ≠ [] := by
        by_contra hh
        rw [not_or, not_not, not_not] at hh
        exact (hx y (by simp)).1.ne (hh.1.trans hh.2.symm)
      have hcub := kappa_cube q (hx y (by simp)).2 hne
      have hK : Commute (kappa q y.2.1 y.2.2) (saGen q ys) := by
        have hcc : ∀ z ∈ ys, Commute (kappa q y.2.1 y.2.2) (kappa q z.2.1 z.2.2) := fun z hz => hc y (by simp) z (by simp [hz])
        unfold saGen
        clear hX hF ih hV e h2 hx hc
        induction ys with
        | nil => simp
        | cons z zs ih =>
          rw [List.map_cons, List.sum_cons]
          exact ((hcc z (by simp)).smul_right _).add_right (ih fun z hz => hcc z (by simp [hz]))
      have hm : lmask (caList y.2.1 y.2.2) < 2 ^ n := by
        refine lmask_lt ?_
        intro x hx'
        rcases List.mem_append.1 hx' with hx' | hx' <;> obtain ⟨p, hp, rfl⟩ := List.mem_map.1 hx'
        · exact (hx y (by simp)).1.bound_c p hp
        · exact (hx y (by simp)).1.bound_a p hp
      refine ⟨?_, ?_⟩
      · rw [e]
        have := flow_comp hm (kappa_skew q y.2.1 y.2.2) hcub h1 y.1 hF hK (fun t => hX _ (fun z hz => hc z (by simp [hz]) y (by simp)) t)
        simpa [saGen] using this
      · intro X hXc t
        rw [e]
        exact (hX X (fun z hz => hXc z (by simp [hz])) t).mul_right (flow_commute hcub h1 (hXc y (by simp)) _).symm

/-! ### the circuits and operators of `measure_gradient` -/

theorem wexc_trotter (o : DescSort) {n : ℕ} {c a : List ℕ} (h : Excit n c a) (hr : c.length ≤ 19) (q : Bool) {w : ℝ} (hw : 1e-12 * 4 ^ c.length < |w|) :
    ∃ Q R, jwTransform o (wTerms w c a) q = .ok (Q, R) ∧ ∀ (t : ℝ) (N : ℤ), 1 ≤ N →
      ∃ C, trotterize Q (t : ℂ) N = .ok (C, 1) ∧ IsExp (((t * w : ℝ) : ℂ) • kappa q c a) C.op ∧ (∀ g ∈ C, ExactGate g) ∧ C.Fits n := by
  obtain ⟨Q, R, e, nQ, hQ, hl⟩ := jw_wexc o h hr q hw
  refine ⟨Q, R, e, fun t N hN => ?_⟩
  have hs : RealSkew (lmask (caList c a)) Q.opLR := by
    rw [hQ]
    obtain ⟨k, h1, h2⟩ := kappa_skew q c a
    refine ⟨fun I => w * k I, fun ψ I => ?_, fun I => ?_⟩
    · rw [LinearMap.smul_apply, Pi.smul_apply, h1, smul_eq_mul]; push_cast; ring
    · show w * k _ = -(w * k I); rw [h2]; ring
  have h0 : ∀ t ∈ Q, t.1 ≠ 0 := fun t ht => ne_zero_of_gt (hl t ht).1
  obtain ⟨C, c1, c2, c3, c4⟩ := skew_trotter nQ.canonical (Normal.nodup nQ) h0 hs (n := n) (by
    rw [hQ]; exact (acts_kappa q h.bound_c h.bound_a).smul _) Q (fun x hx => ⟨x, hx, rfl⟩) (t : ℂ) (by
    intro x hx
    have := (skew_strings nQ.canonical (Normal.nodup nQ) hs x hx (h0 x hx)).1
    simp [this]) N 1 le_rfl hN
  refine ⟨C, c1, ?_, fun g hg => (c3 g hg).2, c4⟩
  rw [hQ, smul_smul] at c2
  push_cast
  exact c2

/-- the circuit that `measure_gradient` builds to take a spin-adapted factor off the state: the inverse pieces in the order of the ansatz (not reversed) -/
theorem sa_undo (o : DescSort) {A : UccAlg} (hN : 1 ≤ A.trotterNumber) (t : ℝ) {ys : List (ℝ × List ℕ × List ℕ)}
    (hx : ∀ y ∈ ys, Excit A.nqb y.2.1 y.2.2 ∧ y.2.1.length ≤ 19 ∧ 1e-12 * 4 ^ y.2.1.length < |y.1|) {V : ℝ → Op} (hV : SaFlow A.qubitExc ys V) :
    ∃ U, (ys.map fun y => wTerms y.1 y.2.1 y.2.2).foldlM (fun (U : Circuit) s => (do
      let c ← A.undoFactor o t s
      pure (U.addCircuit c) : Except Exc Circuit)) [] = .ok U ∧ U.op = V (-t) ∧ (∀ g ∈ U, ExactGate g) ∧ U.Fits A.nqb := by
  obtain ⟨Ws, hW, hV⟩ := hV
  rw [hV]
  clear hV
  have key : ∀ (U₀ : Circuit), (∀ g ∈ U₀, ExactGate g) → U₀.Fits A.nqb → ∃ U, (ys.map fun y => wTerms y.1 y.2.1 y.2.2).foldlM (fun (U : Circuit) s => (do
      let c ← A.undoFactor o t s
      pure (U.addCircuit c) : Except Exc Circuit)) U₀ = .ok U ∧
      U.op = applyInOrder (List.zipWith (fun y W => W (-t * y.1)) ys Ws) * U₀.op ∧ (∀ g ∈ U, ExactGate g) ∧ U.Fits A.nqb := by
    induction hW with
    | nil => intro U₀ h1 h2; exact ⟨U₀, rfl, by simp [applyInOrder], h1, h2⟩
    | @cons y W ys Ws h _ ih =>
      intro U₀ g1 g2
      obtain ⟨he, hr, hw⟩ := hx y (by simp)
      obtain ⟨Q, R, e, hT⟩ := wexc_trotter o he hr A.qubitExc hw
      obtain ⟨C, c1, c2, c3, c4⟩ := hT (-t) A.trotterNumber hN
      have hu : A.undoFactor o t (wTerms y.1 y.2.1 y.2.2) = .ok C := by
        unfold UccAlg.undoFactor
        rw [e, except_ok_bind]
        push_cast at c1
        simp only [c1, except_ok_bind, ne_eq, not_true_eq_false, if_false, pure, Except.pure]
      have happ : U₀.addCircuit C = U₀ ++ C := addCircuit_eq U₀ C
      obtain ⟨U, u1, u2, u3, u4⟩ := ih (fun z hz => hx z (by simp [hz])) (U₀ ++ C) (by
          intro g hg
          rcases List.mem_append.1 hg with hg | hg
          exacts [g1 g hg, c3 g hg]) (by
          intro g hg
          rcases List.mem_append.1 hg with hg | hg
          exacts [g2 g hg, c4 g hg])
      refine ⟨U, ?_, ?_, u3, u4⟩
      · rw [List.map_cons, List.foldlM_cons, hu, except_ok_bind, happ]
        exact u1
      · rw [u2, Circuit.op_append, List.zipWith_cons_cons, applyInOrder, mul_assoc]
        congr 2
        exact c2.unique (h _)
  obtain ⟨U, u1, u2, u3, u4⟩ := key [] (by simp) (by intro g hg; simp at hg)
  exact ⟨U, u1, by rw [u2]; simp [Circuit.op], u3, u4⟩

/-- multiples of `w` times Gaussian integers over `2 ^ m` -/
def WLat (w : ℝ) (m : ℕ) (z : ℂ) : Prop := ∃ y, Lat m y ∧ z = y * w

theorem WLat.grid {w : ℝ} {m : ℕ} (h : 1e-12 * 2 ^ m < |w|) : Grid (WLat w m) := by
  refine ⟨?_, ?_, ?_⟩
  · rintro _ _ ⟨y, hy, rfl⟩ ⟨z, hz, rfl⟩; exact ⟨y + z, hy.add hz, by ring⟩
  · rintro k _ hk ⟨y, hy, rfl⟩; exact ⟨y * k, hy.mul (Lat.unit4 hk), by ring⟩
  · rintro _ ⟨y, hy, rfl⟩ hc
    by_cases h0 : y = 0
    · rw [h0, zero_mul]
    · exfalso
      have := lat_bound hy h0
      rw [norm_mul, Complex.norm_real, Real.norm_eq_abs] at hc
      have h2 : (0 : ℝ) < 2 ^ m := by positivity
      nlinarith [norm_nonneg y, abs_nonneg w]

theorem saGood_mem {n : ℕ} {ys : List (ℝ × List ℕ × List ℕ)} {e : SQOperator} (h : SaElem n ys e) : ∀ t ∈ e, ∃ y ∈ ys,
    (t = ((y.1 : ℂ), y.2.1, y.2.2) ∨ t = (-(y.1 : ℂ), y.2.2, y.2.1)) := by
  obtain ⟨rest, rfl, hp⟩ := h.half
  intro t ht
  rcases List.mem_append.1 ht with ht | ht
  · obtain ⟨y, hy, rfl⟩ := List.mem_map.1 ht; exact ⟨y, hy, .inl rfl⟩
  · obtain ⟨y, hy, rfl⟩ := List.mem_map.1 (hp.mem_iff.1 ht); exact ⟨y, hy, .inr rfl⟩

theorem saElem_lad {n : ℕ} {ys : List (ℝ × List ℕ × List ℕ)} {e : SQOperator} (h : SaElem n ys e) (q : Bool) :
    (e.map fun t => t.1 • ladString q t.2).sum = saGen q ys := by
  obtain ⟨rest, rfl, hp⟩ := h.half
  rw [List.map_append, List.sum_append, (hp.map _).sum_eq]
  have hx := h.exc
  clear hp h
  unfold saGen
  induction ys with
  | nil => simp
  | cons y ys ih =>
    have ih := ih fun x hx' => hx x (by simp [hx'])
    obtain ⟨he, _⟩ := hx y (by simp)
    have hk : kappa q y.2.1 y.2.2 = ladString q y.2 - ladString q (y.2.2, y.2.1) := by
      cases q
      · rw [kappa, if_neg (by decide), fermiString_reverse (sdesc_nodup he.desc_a) (sdesc_nodup he.desc_c) he.rank.symm]; rfl
      · rw [kappa, if_pos rfl, qubitString_reverse]; rfl
    simp only [List.map_cons, List.sum_cons, List.map_map] at ih ⊢
    rw [← ih, hk]
    module

/-- the Jordan-Wigner transform of a spin-adapted element is exact -/
theorem sa_jw (o : DescSort) {n : ℕ} {ys : List (ℝ × List ℕ × List ℕ)} {e : SQOperator} (h : SaGood n ys e) (q : Bool) :
    ∃ Q, jwTransform o e q = .ok (Q, e) ∧ OpOn n (saGen q ys) Q := by
  have hm := saGood_mem h.toSaElem
  have hd : e.Distinct := by
    intro t ht
    obtain ⟨y, hy, ht⟩ := hm t ht
    obtain ⟨he, _⟩ := h.exc y hy
    rcases ht with rfl | rfl
    · exact ⟨sdesc_nodup he.desc_c, sdesc_nodup he.desc_a⟩
    · exact ⟨sdesc_nodup he.desc_a, sdesc_nodup he.desc_c⟩
  have hlen : ∀ t ∈ e, ∃ y ∈ ys, t.2.1.length + t.2.2.length = 2 * y.2.1.length ∧ (t.1 = (y.1 : ℂ) ∨ t.1 = -(y.1 : ℂ)) := by
    intro t ht
    obtain ⟨y, hy, ht⟩ := hm t ht
    have := (h.exc y hy).1.rank
    rcases ht with rfl | rfl <;> refine ⟨y, hy, ?_, ?_⟩ <;> simp <;> omega
  have hs : SQOperator.simplify o e = .ok e := by
    refine simplify_target o e e hd ?_ h.sorted ?_ rfl
    · intro t ht
      obtain ⟨y, hy, ht⟩ := hm t ht
      obtain ⟨he, _⟩ := h.exc y hy
      rcases ht with rfl | rfl
      · exact ⟨he.desc_c, he.desc_a⟩
      · exact ⟨he.desc_a, he.desc_c⟩
    · intro t ht
      obtain ⟨y, hy, _, e1⟩ := hlen t ht
      have h3 := (h.exc y hy).2.2
      have h1 : (1 : ℝ) ≤ 4 ^ y.2.1.length := one_le_pow₀ (by norm_num)
      have : ‖t.1‖ = |y.1| := by rcases e1 with e1 | e1 <;> rw [e1] <;> simp
      rw [this]; nlinarith
  obtain ⟨Q, R, DQ, e1, e2, e3, nQ, hQ, _, hex⟩ := jw_grid o e q hd (by
    intro t ht
    obtain ⟨y, hy, e1, _⟩ := hlen t ht
    have := (h.exc y hy).2.1
    omega)
  rw [hs] at e2; cases e2
  obtain ⟨w, r, hw, hg⟩ := h.grid
  obtain ⟨h0, _⟩ := hex (WLat w (2 * r)) (WLat.grid (by rw [pow_mul]; norm_num at hw ⊢; exact hw)) (by
    intro t ht y hy
    obtain ⟨z, hz, e1, e2⟩ := hlen t ht
    obtain ⟨hr, k, hk⟩ := hg z hz
    have hy' : Lat (2 * r) y := hy.mono (by omega)
    rcases e2 with e2 | e2
    · refine ⟨y * k, (hy'.mul (k := 0) ⟨k, 0, by simp⟩), ?_⟩
      rw [e2, hk]; push_cast; ring
    · refine ⟨y * (-k : ℤ), (hy'.mul (k := 0) ⟨-k, 0, by simp⟩), ?_⟩
      rw [e2, hk]; push_cast; ring)
  rw [h0, add_zero, saElem_lad h.toSaElem] at e3
  have hact : ActsBelow n (saGen q ys) := by
    unfold saGen
    have := h.exc
    clear * - this
    induction ys with
    | nil => exact ActsBelow.zero n
    | cons y ys ih =>
      rw [List.map_cons, List.sum_cons]
      exact ((acts_kappa q (this y (by simp)).1.bound_c (this y (by simp)).1.bound_a).smul _).add (ih fun z hz => this z (by simp [hz]))
  have hn0 : ∀ t ∈ Q, t.1 ≠ 0 := fun t ht => ne_zero_of_gt (hQ t ht)
  have h2 := support_strings nQ.canonical (Normal.nodup nQ) (n := n) (by rw [← e3]; exact hact)
  refine ⟨Q, e1, by rw [op_eq_opLR_canonical nQ.canonical, e3], ?_⟩
  intro t ht
  refine ⟨fun g hg => ?_, fun g hg => ((nQ.canonical t ht).pauli g hg).exact⟩
  have := h2 t ht (hn0 t ht) g hg
  rw [((nQ.canonical t ht).pauli g hg).control]
  exact ⟨this, this⟩

/-! ### the gradient when the pieces of every element commute -/

theorem ladders_swap (L M : List (Bool × ℕ)) (h : ∀ x ∈ L, ∀ y ∈ M, x.2 ≠ y.2) :
    (L.map fun x => ladder x.1 x.2).prod * (M.map fun x => ladder x.1 x.2).prod =
      (-1 : ℂ) ^ (L.length * M.length) • ((M.map fun x => ladder x.1 x.2).prod * (L.map fun x => ladder x.1 x.2).prod) := by
  have one : ∀ (x : Bool × ℕ) (M : List (Bool × ℕ)), (∀ y ∈ M, x.2 ≠ y.2) →
      ladder x.1 x.2 * (M.map fun x => ladder x.1 x.2).prod = (-1 : ℂ) ^ M.length • ((M.map fun x => ladder x.1 x.2).prod * ladder x.1 x.2) := by
    intro x M
    induction M with
    | nil => intro _; simp
    | cons y M ih =>
      intro h
      rw [List.map_cons, List.prod_cons, ← mul_assoc, ladder_anticomm_ne _ _ (h y (by simp)), Op.negMul, mul_assoc, ih fun y hy => h y (by simp [hy]),
        mul_smul_comm, ← mul_assoc, List.length_cons, pow_succ]
      module
  induction L with
  | nil => simp
  | cons x L ih =>
    rw [List.map_cons, List.prod_cons, mul_assoc, ih fun x hx => h x (by simp [hx]), mul_smul_comm, ← mul_assoc, one x M (h x (by simp)), smul_mul_assoc, smul_smul,
      mul_assoc, List.length_cons, ← pow_add]
    congr 2
    ring

theorem prod_comm_of {α β : Type} (f : α → Op) (g : β → Op) (L : List α) (M : List β) (h : ∀ x ∈ L, ∀ y ∈ M, Commute (f x) (g y)) : Commute (L.map f).prod (M.map g).prod := by
  apply Commute.list_prod_left
  intro X hX
  obtain ⟨x, hx, rfl⟩ := List.mem_map.1 hX
  apply Commute.list_prod_right
  intro Y hY
  obtain ⟨y, hy, rfl⟩ := List.mem_map.1 hY
  exact h x hx y hy

/-- excitations between equally many orbitals commute if they share no orbital -/
theorem kappa_commute (q : Bool) {c a c' a' : List ℕ} (h1 : c.length = a.length) (h2 : ∀ x ∈ c ++ a, ∀ y ∈ c' ++ a', x ≠ y) : Commute (kappa q c a) (kappa q c' a') := by
  have key : ∀ (u v : List ℕ) (u' v' : List ℕ), u.length = v.length → (∀ x ∈ u ++ v, ∀ y ∈ u' ++ v', x ≠ y) → Commute (ladString q (u, v)) (ladString q (u', v')) := by
    intro u v u' v' hl hd
    cases q
    · have e : ∀ c a : List ℕ, ladString false (c, a) = (((c.map fun p => (true, p)) ++ (a.map fun p => (false, p))).map fun x : Bool × ℕ => ladder x.1 x.2).prod := by
        intro c a
        rw [ladString_false, List.map_append, List.prod_append, List.map_map, List.map_map]; rfl
      show _ * _ = _ * _
      rw [e, e, ladders_swap]
      · rw [show ((-1 : ℂ) ^ _) = 1 from Even.neg_one_pow (Even.mul_right (by simp [hl]) _), one_smul]
      · intro x hx y hy
        refine hd x.2 ?_ y.2 ?_
        · simp only [List.mem_append, List.mem_map] at hx ⊢
          rcases hx with ⟨p, hp, rfl⟩ | ⟨p, hp, rfl⟩
          exacts [.inl hp, .inr hp]
        · simp only [List.mem_append, List.mem_map] at hy ⊢
          rcases hy with ⟨p, hp, rfl⟩ | ⟨p, hp, rfl⟩
          exacts [.inl hp, .inr hp]
    · rw [ladString_true, ladString_true]
      unfold qubitString
      have hc := fun (l m : List ℕ) (b d : Bool) (h : ∀ x ∈ l, ∀ y ∈ m, x ≠ y) => prod_comm_of (qladder b) (qladder d) l m fun x hx y hy => qladder_comm _ _ _ _ (.inl (h x hx y hy))
      exact ((hc _ _ _ _ fun x hx y hy => hd x (by simp [hx]) y (by simp [hy])).mul_right (hc _ _ _ _ fun x hx y hy => hd x (by simp [hx]) y (by simp [hy]))).mul_left
        ((hc _ _ _ _ fun x hx y hy => hd x (by simp [hx]) y (by simp [hy])).mul_right (hc _ _ _ _ fun x hx y hy => hd x (by simp [hx]) y (by simp [hy])))
  have e : ∀ c a, kappa q c a = ladString q (c, a) - ladString q (a.reverse, c.reverse) := by
    intro c a; cases q <;> rfl
  rw [e, e]
  have hd : ∀ x y, (x ∈ c ∨ x ∈ a) → (y ∈ c' ∨ y ∈ a') → x ≠ y := fun x y hx hy => h2 x (by simpa using hx) y (by simpa using hy)
  exact ((key _ _ _ _ h1 h2).sub_right (key _ _ _ _ h1 fun x hx y hy => hd x y (by simpa using hx) (by simpa [or_comm] using hy))).sub_left
    ((key _ _ _ _ (by simp [h1]) fun x hx y hy => hd x y (by simpa [or_comm] using hx) (by simpa using hy)).sub_right
      (key _ _ _ _ (by simp [h1]) fun x hx y hy => hd x y (by simpa [or_comm] using hx) (by simpa [or_comm] using hy)))

/-- the pool operators picked by `tops` are spin-adapted elements, as `fill_pool` makes them, with the given pieces -/
def UccAlg.SelectsGood (A : UccAlg) (yss : List (List (ℝ × List ℕ × List ℕ))) : Prop :=
  List.Forall₂ (fun i ys => ∃ z e, A.pool[i]? = some (z, e) ∧ SaGood A.nqb ys e) A.tops yss

theorem UccAlg.SelectsGood.sa {A : UccAlg} {yss : List (List (ℝ × List ℕ × List ℕ))} (h : A.SelectsGood yss) : A.SelectsSa yss :=
  List.Forall₂.imp (fun _ _ ⟨z, e, h1, h2⟩ => ⟨z, e, h1, h2.toSaElem⟩) h

/-- the factors of the ansatz, one per operator picked -/
def SaFlows (q : Bool) (yss : List (List (ℝ × List ℕ × List ℕ))) (Vs : List (ℝ → Op)) : Prop := List.Forall₂ (SaFlow q) yss Vs

theorem saFlows_exist (q : Bool) (yss : List (List (ℝ × List ℕ × List ℕ))) : ∃ Vs, SaFlows q yss Vs := by
  have one : ∀ ys : List (ℝ × List ℕ × List ℕ), ∃ V, SaFlow q ys V := by
    intro ys
    obtain ⟨Ws, hW⟩ := flows_exist q (ys.map Prod.snd)
    unfold Flows at hW
    rw [List.forall₂_map_left_iff] at hW
    exact ⟨_, Ws, hW, fun t => rfl⟩
  choose f hf using one
  refine ⟨yss.map f, ?_⟩
  unfold SaFlows
  rw [List.forall₂_map_right_iff]
  exact List.forall₂_same.2 fun ys _ => hf ys

theorem sa_factors {q : Bool} : ∀ (yss : List (List (ℝ × List ℕ × List ℕ))) (Vs : List (ℝ → Op)) (ts : List ℝ) (Ws : List Op), SaFlows q yss Vs →
    (∀ p ∈ saFactors ts yss, AmpResolved p.2 p.1) → List.Forall₂ (AnsatzFactor q 1) (saFactors ts yss) Ws → applyInOrder Ws = uccOp Vs ts := by
  intro yss Vs ts Ws hV hr hW
  unfold SaFlows at hV
  induction hV generalizing ts Ws with
  | nil => 
    have : saFactors ts [] = [] := by simp [saFactors]
    rw [this] at hW
    cases hW
    cases ts <;> rfl
  | @cons ys V yss Vs h _ ih =>
    cases ts with
    | nil =>
      have : saFactors [] (ys :: yss) = [] := by simp [saFactors]
      rw [this] at hW
      cases hW
      rfl
    | cons t ts =>
      have e : saFactors (t :: ts) (ys :: yss) = (ys.map fun y => (t * y.1, y.2)) ++ saFactors ts yss := by simp [saFactors]
      rw [e] at hW hr
      obtain ⟨W1, W2, h1, h2, rfl⟩ : ∃ W1 W2, List.Forall₂ (AnsatzFactor q 1) (ys.map fun y => (t * y.1, y.2)) W1 ∧ List.Forall₂ (AnsatzFactor q 1) (saFactors ts yss) W2 ∧ Ws = W1 ++ W2 := by
        refine ⟨_, _, ?_, ?_, (List.take_append_drop (ys.map fun y => (t * y.1, y.2)).length Ws).symm⟩
        · have := List.forall₂_take (ys.map fun y => (t * y.1, y.2)).length hW
          rwa [List.take_left] at this
        · have := List.forall₂_drop (ys.map fun y => (t * y.1, y.2)).length hW
          rwa [List.drop_left] at this
      rw [applyInOrder_append, ih ts W2 (fun p hp => hr p (by simp only [List.mem_append]; exact .inr hp)) h2, uccOp_cons]
      congr 1
      obtain ⟨Fs, hF, hV⟩ := h
      rw [hV]
      have hr1 : ∀ y ∈ ys, AmpResolved y.2 (t * y.1) := fun y hy => hr (t * y.1, y.2) (List.mem_append_left _ (List.mem_map.2 ⟨y, hy, rfl⟩))
      clear hr hV ih e hW h2
      replace h1 := List.forall₂_map_left_iff.1 h1
      congr 1
      induction hF generalizing W1 with
      | nil => cases h1; rfl
      | @cons y W ys Fs hy _ ih =>
        cases h1 with
        | cons a b =>
          rw [List.zipWith_cons_cons, ih _ (fun y hy => hr1 y (by simp [hy])) b]
          congr 1
          unfold AnsatzFactor at a
          simp only [usedAmp] at a
          rw [if_pos (hr1 _ (by simp))] at a
          norm_num at a
          refine IsExp.unique a ?_
          have := hy (t * y.1)
          push_cast at this
          exact this

theorem selectsGood_get {A : UccAlg} {yss : List (List (ℝ × List ℕ × List ℕ))} (h : A.SelectsGood yss) {Vs : List (ℝ → Op)} (hV : SaFlows A.qubitExc yss Vs)
    {mu : ℕ} (hv : mu < Vs.length) : ∃ i ys z e, A.tops[mu]? = some i ∧ ys ∈ yss ∧ A.pool[i]? = some (z, e) ∧ SaGood A.nqb ys e ∧ SaFlow A.qubitExc ys Vs[mu] := by
  unfold UccAlg.SelectsGood at h
  unfold SaFlows at hV
  have l1 := h.length_eq
  have l2 := hV.length_eq
  obtain ⟨z, e, h1, h2⟩ := List.Forall₂.get h (i := mu) (by omega) (by omega)
  have h3 := List.Forall₂.get hV (i := mu) (by omega) hv
  exact ⟨_, _, z, e, List.getElem?_eq_getElem (by omega : mu < A.tops.length), List.getElem_mem _, h1, h2, h3⟩

/-- `energy_feval` and the state for a spin-adapted pool -/
theorem sa_build (o : DescSort) (so : SortOracle) (A : UccAlg) (yss : List (List (ℝ × List ℕ × List ℕ))) (h : A.SelectsSa yss) (hs : A.saSD = true)
    (hc : A.compact = false) (hN : A.trotterNumber = 1) (ts : List ℝ) (hr : ∀ p ∈ saFactors ts yss, AmpResolved p.2 p.1)
    (Vs : List (ℝ → Op)) (hV : SaFlows A.qubitExc yss Vs) (hR : A.Ready) :
    ∃ U q, A.buildUvqc o so (some ts) = .ok U ∧ A.initialComputer.applyCircuit U = .ok q ∧ q.WF ∧ q.nqubit = A.nqb ∧ q.psi = uccOp Vs ts A.reference := by
  obtain ⟨C, Ws, h1, h2, h3, h4, h5⟩ := C70_sa_SD o so A yss h hs hc (by omega) ts
  rw [hN] at h2 h3
  refine build_of_ansatz o so A ts hR h1 ?_ (fun g hg => (h4 g hg).2) h5
  rw [h3, sa_factors yss Vs ts Ws hV hr h2]
  show _ ^ 1 = _
  rw [pow_one]

/-- C70, spin-adapted pools: `energy_feval(params)` is the energy of the state `Π_μ Π_pieces exp(t_μ w κ) |Φ⟩`. -/
theorem C70_sa_energy (o : DescSort) (so : SortOracle) (A : UccAlg) (yss : List (List (ℝ × List ℕ × List ℕ))) (h : A.SelectsSa yss) (hs : A.saSD = true)
    (hc : A.compact = false) (hN : A.trotterNumber = 1) (ts : List ℝ) (hr : ∀ p ∈ saFactors ts yss, AmpResolved p.2 p.1)
    (Vs : List (ℝ → Op)) (hV : SaFlows A.qubitExc yss Vs) (hR : A.Ready) :
    A.energyFeval o so none ts = .ok (uccEnergy A.nqb A.ham.op A.reference Vs ts) := by
  obtain ⟨U, q, e1, e2, w, n, p⟩ := sa_build o so A yss h hs hc hN ts hr Vs hV hR
  obtain ⟨q', e3, _⟩ := C29_direct_op q A.ham w (by rw [n]; exact hR.ham)
  unfold UccAlg.energyFeval UccAlg.measureEnergy
  rw [e1, except_ok_bind, Option.getD_some, e2, except_ok_bind, e3, except_ok_bind]
  simp only [pure, Except.pure, uccEnergy, energy, n, p]

theorem sa_gradK (o : DescSort) {A : UccAlg} (hz : A.UnitCoeffs) {mu i : ℕ} {z : ℂ} {e : SQOperator} (h1 : A.tops[mu]? = some i) (h3 : A.pool[i]? = some (z, e))
    {Q : QubitOperator} {R : SQOperator} (hj : jwTransform o e A.qubitExc = .ok (Q, R)) : A.gradK o mu = .ok Q := by
  have hz1 : z = 1 := hz i (List.mem_of_getElem? h1) _ h3
  unfold UccAlg.gradK UccAlg.poolAt
  rw [pyIndex_ok h1, except_ok_bind, h3, except_ok_bind]
  simp only [hj, except_ok_bind, pure, Except.pure, hz1, multCoeffs_one]

theorem sa_undoes (o : DescSort) {A : UccAlg} {yss : List (List (ℝ × List ℕ × List ℕ))} (h : A.SelectsGood yss) (hs : A.saSD = true) (hc : A.compact = false)
    (hN : 1 ≤ A.trotterNumber) {Vs : List (ℝ → Op)} (hV : SaFlows A.qubitExc yss Vs) (ts : List ℝ) : A.Undoes o Vs ts := by
  intro mu hv ht Q _
  obtain ⟨i, ys, z, e, h1, _, h3, h4, h5⟩ := selectsGood_get h hV hv
  obtain ⟨U, u1, u2, u3, u4⟩ := sa_undo o hN ts[mu + 1] h4.exc h5
  refine ⟨U, ?_, u2, u3, u4⟩
  unfold UccAlg.undoCircuit UccAlg.poolAt
  rw [pyIndex_ok h1, except_ok_bind, h3, except_ok_bind, hc, hs]
  simp only [Bool.false_eq_true, if_false, if_true, saSplit_eq h4.toSaElem]
  exact u1

/-- C71, spin-adapted pools: if the pieces of every operator picked commute with each other, `measure_gradient` is the gradient of the energy that `energy_feval` computes. -/
theorem C71_sa_commuting (o : DescSort) (so : SortOracle) (A : UccAlg) (yss : List (List (ℝ × List ℕ × List ℕ))) (h : A.SelectsGood yss) (hs : A.saSD = true)
    (hc : A.compact = false) (hN : A.trotterNumber = 1) (hz : A.UnitCoeffs)
    (hcomm : ∀ ys ∈ yss, ∀ y ∈ ys, ∀ z ∈ ys, Commute (kappa A.qubitExc y.2.1 y.2.2) (kappa A.qubitExc z.2.1 z.2.2))
    (ts : List ℝ) (hr : ∀ p ∈ saFactors ts yss, AmpResolved p.2 p.1)
    (Vs : List (ℝ → Op)) (hV : SaFlows A.qubitExc yss Vs) (hR : A.Ready) (hH : HermitianOn A.nqb A.ham.op)
    (h1 : ts.length = A.tops.length) (h2 : A.tamps.length = A.tops.length) (h3 : A.tops ≠ []) :
    A.energyFeval o so none ts = .ok (uccEnergy A.nqb A.ham.op A.reference Vs ts) ∧
    ∃ g, A.measureGradient o so (some ts) = .ok g ∧ g.length = ts.length ∧
      ∀ j (hj : j < ts.length) (hg : j < g.length), HasDerivAt (fun s => uccEnergy A.nqb A.ham.op A.reference Vs (ts.set j s)) g[j] ts[j] := by
  refine ⟨C70_sa_energy o so A yss h.sa hs hc hN ts hr Vs hV hR, ?_⟩
  obtain ⟨U, psi, e1, e2, w, n, p⟩ := sa_build o so A yss h.sa hs hc hN ts hr Vs hV hR
  have l1 := List.Forall₂.length_eq h
  have l2 := List.Forall₂.length_eq hV
  refine gradient_of_ansatz o so A ts Vs ?_ (by omega) hR hH h1 h2 h3 (sa_undoes o h hs hc (by omega) hV ts) e1 e2 w n p
  intro mu hv
  obtain ⟨i, ys, z, e, g1, g2, g3, g4, g5⟩ := selectsGood_get h hV hv
  obtain ⟨Q, q1, q2⟩ := sa_jw o g4 A.qubitExc
  exact ⟨Q, saGen A.qubitExc ys, sa_gradK o hz g1 g3 q1, q2, (saFlow_flow ys _ (fun y hy => ⟨(g4.exc y hy).1, g4.disjoint y hy⟩) (hcomm ys g2) g5).1⟩

end QF
