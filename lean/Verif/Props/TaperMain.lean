import Verif.Props.TaperSym

/-! C56: the theorems about `find_Z2_symmetries`. -/
namespace QF
namespace Taper
open Finset

/-- column `n + i` is non-zero in row `r` only -/
def Own (n : ℕ) (G : BMat) (r i : ℕ) : Prop := ∀ q < G.rows, G.e q (n + i) ≠ 0 ↔ q = r

theorem filter_single {R r : ℕ} {p : ℕ → Bool} : (List.range R).filter p = [r] ↔ r < R ∧ ∀ q < R, p q = true ↔ q = r := by
  constructor
  · intro h
    have hm : ∀ q, q ∈ (List.range R).filter p ↔ q = r := by rw [h]; simp
    refine ⟨?_, fun q hq => ?_⟩
    · have := (hm r).2 rfl
      exact List.mem_range.1 (List.mem_filter.1 this).1
    · rw [← hm q, List.mem_filter, List.mem_range]; simp [hq]
  · rintro ⟨hr, h⟩
    have hm : ∀ q, q ∈ (List.range R).filter p ↔ q ∈ [r] := by
      intro q
      rw [List.mem_filter, List.mem_range, List.mem_singleton]
      constructor
      · rintro ⟨h1, h2⟩; exact (h q h1).1 h2
      · rintro rfl; exact ⟨hr, (h _ hr).2 rfl⟩
    have nd : ((List.range R).filter p).Nodup := List.nodup_range.filter _
    exact List.perm_singleton.1 ((List.perm_ext_iff_of_nodup nd (by simp)).2 hm)

theorem sigma_inv (n : ℕ) (G : BMat) : ∀ (l done : List ℕ) (s : List ℕ), s.length = G.rows →
    (∀ r < G.rows, (∃ i ∈ done, Own n G r i) → ∃ i ∈ done, Own n G r i ∧ s.getD r 0 = n - i - 1) →
    let s' := l.foldl (fun s i =>
      match (List.range G.rows).filter fun r => G.e r (n + i) ≠ 0 with
      | [r] => s.set r (n - i - 1)
      | _ => s) s
    s'.length = G.rows ∧ ∀ r < G.rows, (∃ i ∈ done ++ l, Own n G r i) → ∃ i ∈ done ++ l, Own n G r i ∧ s'.getD r 0 = n - i - 1
  | [], done, s, hl, h => by
    simp only [List.foldl_nil, List.append_nil]
    exact ⟨hl, h⟩
  | i :: l, done, s, hl, h => by
    intro s'
    have step : ∀ t : List ℕ, t.length = G.rows →
        (∀ r < G.rows, (∃ i' ∈ done ++ [i], Own n G r i') → ∃ i' ∈ done ++ [i], Own n G r i' ∧ t.getD r 0 = n - i' - 1) →
        (match (List.range G.rows).filter fun r => G.e r (n + i) ≠ 0 with | [r] => s.set r (n - i - 1) | _ => s) = t →
        s'.length = G.rows ∧ ∀ r < G.rows, (∃ j ∈ done ++ i :: l, Own n G r j) → ∃ j ∈ done ++ i :: l, Own n G r j ∧ s'.getD r 0 = n - j - 1 := by
      intro t t1 t2 e
      have := sigma_inv n G l (done ++ [i]) t t1 t2
      have hs' : s' = l.foldl (fun s i =>
          match (List.range G.rows).filter fun r => G.e r (n + i) ≠ 0 with
          | [r] => s.set r (n - i - 1)
          | _ => s) t := by rw [← e]; rfl
      rw [hs']
      simpa using this
    by_cases hex : ∃ r, (List.range G.rows).filter (fun r => G.e r (n + i) ≠ 0) = [r]
    · obtain ⟨r0, h0⟩ := hex
      have h0' := filter_single.1 h0
      have own0 : Own n G r0 i := fun q hq => by have := h0'.2 q hq; simpa using this
      refine step (s.set r0 (n - i - 1)) (by simpa using hl) ?_ (by rw [h0])
      intro r hr hx
      by_cases hrr : r = r0
      · subst hrr
        refine ⟨i, by simp, own0, ?_⟩
        rw [List.getD_eq_getElem _ _ (by simpa [hl] using hr)]; simp
      · have : ∃ i' ∈ done, Own n G r i' := by
          obtain ⟨i', hi', o'⟩ := hx
          rw [List.mem_append, List.mem_singleton] at hi'
          rcases hi' with hi' | rfl
          · exact ⟨i', hi', o'⟩
          · exact absurd ((own0 r hr).1 ((o' r hr).2 rfl)) hrr
        obtain ⟨i', hi', o', e'⟩ := h r hr this
        refine ⟨i', by simp [hi'], o', ?_⟩
        rw [List.getD_eq_getElem?_getD, List.getElem?_set_ne (Ne.symm hrr), ← List.getD_eq_getElem?_getD]; exact e'
    · refine step s hl ?_ ?_
      · intro r hr hx
        have : ∃ i' ∈ done, Own n G r i' := by
          obtain ⟨i', hi', o'⟩ := hx
          rw [List.mem_append, List.mem_singleton] at hi'
          rcases hi' with hi' | rfl
          · exact ⟨i', hi', o'⟩
          · exact absurd ⟨r, filter_single.2 ⟨hr, fun q hq => by have := o' q hq; simpa using this⟩⟩ hex
        obtain ⟨i', hi', o', e'⟩ := h r hr this
        exact ⟨i', by simp [hi'], o', e'⟩
      · split
        · rename_i r e; exact absurd ⟨r, e⟩ hex
        · rfl

/-- a row that owns a column is paired with the qubit of a column it owns -/
theorem sigma_spec (n : ℕ) (G : BMat) (least : Bool) : (sigmaX n G least).length = G.rows ∧
    ∀ r < G.rows, (∃ i < n, Own n G r i) → ∃ i < n, Own n G r i ∧ (sigmaX n G least).getD r 0 = n - i - 1 := by
  have hm : ∀ i, i ∈ (if least then List.range n else (List.range n).reverse) ↔ i < n := by intro i; split_ifs <;> simp
  obtain ⟨h1, h2⟩ := sigma_inv n G (if least then List.range n else (List.range n).reverse) [] (List.replicate G.rows 0) (by simp) (fun r _ h => by simp at h)
  refine ⟨h1, fun r hr ⟨i, hi, o⟩ => ?_⟩
  obtain ⟨j, hj, oj, e⟩ := h2 r hr ⟨i, by rw [List.nil_append, hm]; exact hi, o⟩
  rw [List.nil_append, hm] at hj
  exact ⟨j, hj, oj, e⟩

/-- the operator `(g + X_s) / √2` as it is stored -/
noncomputable def unitaryTerm (t : Circuit × ℕ) : QubitOperator := [(1 / (Real.sqrt 2 : ℂ), t.1), (1 / (Real.sqrt 2 : ℂ), [gX t.2])]

theorem unitaryOf_ok (g : Circuit) (s : ℕ) : unitaryOf g s = .ok (unitaryTerm (g, s)) := by
  have e : pyGate1 "X" s 0 = .ok (gX s) := by
    unfold pyGate1
    rw [if_neg (by simp), if_pos (by decide)]
    exact make_X s _
  unfold unitaryOf
  rw [e]; rfl

/-- the part of `find_Z2_symmetries` after the linear algebra -/
noncomputable def finish (gens : List Circuit) (sig : List ℕ) : Except Exc Symmetries :=
  match (gens.zip sig).map unitaryTerm with
  | [] => .error .indexError
  | u :: rest => do
    let unitary ← rest.foldlM (fun U op => U.operatorProduct op true true) (QubitOperator.addOp [] u)
    pure { generators := gens, sigmaX := sig, unitaries := u :: rest, unitary := unitary }

theorem findZ2_shape (o : SQOperator.DescSort) (H : QubitOperator) (least : Bool) (fuel : ℕ) (hf : 2 * H.numQubits < fuel) :
    ∃ G, GroupSpec H H.numQubits G ∧ findZ2 o fuel H least =
      finish ((o.perm (sigmaX H.numQubits G least)).map fun r => genc H.numQubits (G.e r))
        ((o.perm (sigmaX H.numQubits G least)).map fun r => (sigmaX H.numQubits G least).getD r 0) := by
  obtain ⟨G, e, hG⟩ := group_spec H H.numQubits least fuel hf
  refine ⟨G, hG, ?_⟩
  unfold findZ2
  simp only
  rw [e, except_ok_bind, mapM_ok _ (fun i => genc H.numQubits (G.e i)) _ (fun i _ => (genc_spec _ _).1), except_ok_bind]
  have hp := o.isPerm (sigmaX H.numQubits G least)
  rw [(sigma_spec H.numQubits G least).1] at hp
  have hg : ((o.perm (sigmaX H.numQubits G least)).map fun i => (((List.range G.rows).map fun i => genc H.numQubits (G.e i)).getD i [])) =
      (o.perm (sigmaX H.numQubits G least)).map fun r => genc H.numQubits (G.e r) := by
    apply List.map_congr_left
    intro r hr
    have hr' := List.mem_range.1 (hp.mem_iff.1 hr)
    rw [List.getD_eq_getElem _ _ (by simpa using hr')]; simp
  rw [hg, mapM_ok _ unitaryTerm _ (fun t _ => unitaryOf_ok t.1 t.2), except_ok_bind]
  rfl

theorem unitaryTerm_isPauli {g : Circuit} (hg : g.Canonical) (s : ℕ) : (unitaryTerm (g, s)).IsPauli := by
  intro t ht
  simp only [unitaryTerm, List.mem_cons, List.not_mem_nil, or_false] at ht
  rcases ht with rfl | rfl
  · exact canonical_api hg
  · intro x hx
    rw [List.mem_singleton] at hx; subst hx
    exact ⟨.make (make_X s 0), .inl rfl⟩

theorem fold_products : ∀ (l : List QubitOperator) (U : QubitOperator), U.IsPauli → (∀ u ∈ l, u.IsPauli) →
    ∃ W, l.foldlM (fun U op => U.operatorProduct op true true) U = .ok W ∧ W.IsPauli
  | [], U, hU, _ => ⟨U, rfl, hU⟩
  | u :: l, U, hU, hl => by
    obtain ⟨R, _, _, e, _, can, _⟩ := C21_operator_product U u true true hU (hl u (by simp))
    obtain ⟨W, e2, hW⟩ := fold_products l R (fun t ht => canonical_api (can t ht)) (fun x hx => hl x (by simp [hx]))
    refine ⟨W, ?_, hW⟩
    rw [List.foldlM_cons, e, except_ok_bind, e2]

theorem addOp_nil (u : QubitOperator) : QubitOperator.addOp [] u = u := by
  have : ∀ (B A : QubitOperator), QubitOperator.addOp A B = A ++ B := by
    intro B
    unfold QubitOperator.addOp
    induction B with
    | nil => intro A; simp
    | cons b B ih => intro A; rw [List.foldl_cons, ih]; simp
  rw [this]; rfl

theorem finish_ok {gens : List Circuit} {sig : List ℕ} (hl : sig.length = gens.length) (hc : ∀ g ∈ gens, g.Canonical) :
    (gens = [] ∧ finish gens sig = .error .indexError) ∨
    ∃ S, finish gens sig = .ok S ∧ S.generators = gens ∧ S.sigmaX = sig ∧ gens ≠ [] ∧ S.unitary.IsPauli := by
  cases gens with
  | nil => left; exact ⟨rfl, rfl⟩
  | cons g gens =>
    right
    cases sig with
    | nil => simp at hl
    | cons s sig =>
      have hu : ∀ t ∈ (g :: gens).zip (s :: sig), (unitaryTerm t).IsPauli := by
        intro t ht
        exact unitaryTerm_isPauli (hc t.1 (List.of_mem_zip ht).1) t.2
      obtain ⟨W, e, hW⟩ := fold_products ((gens.zip sig).map unitaryTerm) (unitaryTerm (g, s)) (hu (g, s) (by simp)) (by
        intro u hu'
        obtain ⟨t, ht, rfl⟩ := List.mem_map.1 hu'
        exact hu t (by simp [ht]))
      refine ⟨{ generators := g :: gens, sigmaX := s :: sig, unitaries := unitaryTerm (g, s) :: (gens.zip sig).map unitaryTerm, unitary := W }, ?_, rfl, rfl, by simp, hW⟩
      unfold finish
      simp only [List.zip_cons_cons, List.map_cons]
      rw [addOp_nil, e]; rfl

/-- X on qubit `q` against a canonical string -/
theorem opX_canon {s : Circuit} (hs : s.Canonical) (q : ℕ) (x z : ZMod 2) (h : letterAt s q = bitLetter x z) :
    (z = 0 → Commute s.opLR (opX q)) ∧ (z = 1 → AntiCommute s.opLR (opX q)) := by
  have hc := canon_conj hs (m := "X") (.inl rfl) q
  rw [h, pauliL_X] at hc
  have sq := opX_sq q
  have key : s.opLR * opX q = eps (bitLetter x z) "X" • (opX q * s.opLR) := by
    calc s.opLR * opX q = opX q * (opX q * s.opLR * opX q) := by rw [← mul_assoc, ← mul_assoc, sq, one_mul]
      _ = _ := by rw [hc, mul_smul_comm]
  have hb : ∀ x : ZMod 2, x = 0 ∨ x = 1 := by decide
  constructor
  · rintro rfl
    have : eps (bitLetter x 0) "X" = 1 := by rcases hb x with rfl | rfl <;> simp [eps, bitLetter]
    rw [this, one_smul] at key
    exact key
  · rintro rfl
    have : eps (bitLetter x 1) "X" = -1 := by rcases hb x with rfl | rfl <;> simp [eps, bitLetter]
    rw [this, Op.neg_one_smul] at key
    exact key

/-- a symmetry made of X gates only -/
def IsXSymmetry (H : QubitOperator) (c : Circuit) : Prop := IsSymmetry H c ∧ ∀ g ∈ c, g.label = "X"

theorem perm_spec (o : SQOperator.DescSort) (s : List ℕ) {R : ℕ} (h : s.length = R) : (o.perm s).Perm (List.range R) := h ▸ o.isPerm s

theorem gens_perm (o : SQOperator.DescSort) (n : ℕ) (G : BMat) (least : Bool) :
    ((o.perm (sigmaX n G least)).map fun r => genc n (G.e r)).Perm ((List.range G.rows).map fun r => genc n (G.e r)) :=
  (perm_spec o _ (sigma_spec n G least).1).map _

theorem pairs_spec (o : SQOperator.DescSort) (H : QubitOperator) (hH : ∀ t ∈ H, t.2.Canonical) (least : Bool) {G : BMat} (h : GroupSpec H H.numQubits G)
    (hx : ∀ c, IsXSymmetry H c → c = []) :
    TaperPairs H.numQubits ((o.perm (sigmaX H.numQubits G least)).map fun r => genc H.numQubits (G.e r))
      ((o.perm (sigmaX H.numQubits G least)).map fun r => (sigmaX H.numQubits G least).getD r 0) := by
  have hH' : ∀ t ∈ H, t.2.Canonical ∧ ∀ g ∈ t.2, g.target < H.numQubits := fun t ht => ⟨hH t ht, term_targets ht⟩
  set n := H.numQubits with hn
  obtain ⟨sl, ss⟩ := sigma_spec n G least
  set sig := sigmaX n G least with hsig
  have hp := perm_spec o sig sl
  have hlt : ∀ r ∈ o.perm sig, r < G.rows := fun r hr => List.mem_range.1 (hp.mem_iff.1 hr)
  have nd : (o.perm sig).Nodup := hp.nodup_iff.2 List.nodup_range
  -- every row owns a column
  have own : ∀ r < G.rows, ∃ i < n, Own n G r i := by
    intro r hr
    rcases h.own r hr with ⟨c, h1, h2, h3⟩ | h0
    · exact ⟨c - n, by omega, fun q hq => by rw [show n + (c - n) = c by omega]; exact h3 q hq⟩
    · exfalso
      obtain ⟨_, can, tg, hl, op⟩ := genc_spec n (G.e r)
      have hnil := hx (genc n (G.e r)) ⟨⟨can, tg, by rw [op]; exact (C56_kernel_iff n H hH' _).1 (h.ker r hr)⟩, by
        intro g hg
        have hgl : letterAt (genc n (G.e r)) g.target = g.label := by
          unfold letterAt
          have hfind : (genc n (G.e r)).find? (fun x => x.target = g.target) = some g := by
            rcases hf : (genc n (G.e r)).find? (fun x => x.target = g.target) with _ | g'
            · rw [List.find?_eq_none] at hf; have := hf g hg; simp at this
            · have e1 : g'.target = g.target := by simpa using List.find?_some hf
              have m1 := List.mem_of_find?_eq_some hf
              have pw := can.sorted
              obtain ⟨i, hi, rfl⟩ := List.getElem_of_mem hg
              obtain ⟨j, hj, rfl⟩ := List.getElem_of_mem m1
              rcases Nat.lt_trichotomy i j with hij | hij | hij
              · have := List.pairwise_iff_getElem.1 pw i j hi hj hij; omega
              · subst hij; exact hf
              · have := List.pairwise_iff_getElem.1 pw j i hj hi hij; omega
          rw [hfind]
        have ht := tg g hg
        rw [← hgl, hl _ ht, h0 (2 * n - 1 - g.target) (by omega) (by omega)]
        have hb : ∀ x : ZMod 2, x = 0 ∨ x = 1 := by decide
        rcases hb (G.e r (n - 1 - g.target)) with e | e
        · exfalso
          have e2 := hl _ ht
          rw [e, h0 (2 * n - 1 - g.target) (by omega) (by omega), hgl] at e2
          have hxyz := (canonical_iff.1 can).1 g hg |>.letter
          rw [e2] at hxyz
          revert hxyz; unfold IsXYZ; decide
        · rw [e]; decide⟩
      rw [hnil] at op
      have hz : pauliVec n (G.e r) = (1 : ℂ) • 1 := by rw [← op, one_smul]; rfl
      have hrow := pauliVec_scalar hz
      have := h.indep (Pi.single r 1) (fun k hk => by
        unfold comb
        have h1 := sum_single G.rows (fun a => G.e a k) hr
        rw [h.cols] at hk
        have h2 := hrow k hk
        rw [h2] at h1
        simpa [mul_comm] using h1) r hr
      simp at this
  have key : ∀ r < G.rows, ∃ i < n, Own n G r i ∧ sig.getD r 0 = n - i - 1 := fun r hr => ss r hr (own r hr)
  have inj : ∀ r < G.rows, ∀ r' < G.rows, sig.getD r 0 = sig.getD r' 0 → r = r' := by
    intro r hr r' hr' e
    obtain ⟨i, hi, o1, e1⟩ := key r hr
    obtain ⟨j, hj, o2, e2⟩ := key r' hr'
    have : i = j := by omega
    subst this
    exact (o2 r hr).1 ((o1 r hr).2 rfl)
  have zb : ∀ r < G.rows, ∀ r' < G.rows, G.e r (2 * n - 1 - sig.getD r' 0) = if r = r' then 1 else 0 := by
    intro r hr r' hr'
    obtain ⟨i, hi, o1, e1⟩ := key r' hr'
    rw [e1, show 2 * n - 1 - (n - i - 1) = n + i by omega]
    split_ifs with hrr
    · exact z2_ne ((o1 r hr).2 hrr)
    · by_contra h0; exact hrr ((o1 r hr).1 h0)
  have slt : ∀ r < G.rows, sig.getD r 0 < n := by
    intro r hr
    obtain ⟨i, hi, _, e⟩ := key r hr
    omega
  have getg : ∀ i (hi : i < (o.perm sig).length), (o.perm sig)[i] < G.rows := fun i hi => hlt _ (List.getElem_mem hi)
  refine ⟨by simp, ?_, ?_, ?_, ?_⟩
  · rw [List.pairwise_map]
    have hs := o.sorted sig
    rw [List.pairwise_iff_getElem] at hs ⊢
    intro i j hi hj hij
    have h1 := hs i j hi hj hij
    have h2 : sig.getD (o.perm sig)[i] 0 ≠ sig.getD (o.perm sig)[j] 0 := by
      intro e
      have := inj _ (getg i hi) _ (getg j hj) e
      rw [nd.getElem_inj_iff] at this
      omega
    show sig.getD (o.perm sig)[j] 0 < sig.getD (o.perm sig)[i] 0
    omega
  · intro s hs
    obtain ⟨r, hr, rfl⟩ := List.mem_map.1 hs
    exact slt r (hlt r hr)
  · intro i hi
    rw [List.length_map] at hi
    have hr := getg i hi
    rw [List.getElem_map, List.getD_eq_getElem _ _ (by simpa using hi), List.getElem_map]
    obtain ⟨_, can, _, hl, _⟩ := genc_spec n (G.e (o.perm sig)[i])
    refine (opX_canon can _ _ _ (hl _ (slt _ hr))).2 ?_
    rw [zb _ hr _ hr, if_pos rfl]
  · intro i hi j hj hji
    rw [List.length_map] at hi hj
    rw [List.getElem_map, List.getD_eq_getElem _ _ (by simpa using hj), List.getElem_map]
    obtain ⟨_, can, _, hl, _⟩ := genc_spec n (G.e (o.perm sig)[i])
    refine (opX_canon can _ _ _ (hl _ (slt _ (getg j hj)))).1 ?_
    rw [zb _ (getg i hi) _ (getg j hj), if_neg]
    intro e
    rw [nd.getElem_inj_iff] at e
    exact hji e.symm

/-- C56: for every Hamiltonian of canonical Pauli strings and either order of tapering, `find_Z2_symmetries` ends; it raises
IndexError exactly when the Hamiltonian has no symmetry other than the identity, and otherwise returns independent generators of a
maximal Abelian group of symmetries: each commutes with every term of the Hamiltonian, they commute with each other, and every
symmetry commuting with all of them is a product of them. -/
theorem C56_generators (o : SQOperator.DescSort) (H : QubitOperator) (hH : ∀ t ∈ H, t.2.Canonical) (least : Bool) : ∃ N, ∀ fuel ≥ N,
    (findZ2 o fuel H least = .error .indexError ∧ ∀ c, IsSymmetry H c → c = []) ∨
    ∃ S, findZ2 o fuel H least = .ok S ∧ SymmetryGenerators H S.generators ∧ S.generators ≠ [] ∧ S.sigmaX.length = S.generators.length := by
  refine ⟨2 * H.numQubits + 1, fun fuel hf => ?_⟩
  obtain ⟨G, hG, e⟩ := findZ2_shape o H least fuel (by omega)
  have hs := SymmetryGenerators.perm (gens_perm o H.numQubits G least) (generators_spec H hH hG)
  rw [e]
  rcases finish_ok (gens := (o.perm (sigmaX H.numQubits G least)).map fun r => genc H.numQubits (G.e r))
      (sig := (o.perm (sigmaX H.numQubits G least)).map fun r => (sigmaX H.numQubits G least).getD r 0) (by simp)
      (fun g hg => (hs.symmetry g hg).canonical) with ⟨h1, h2⟩ | ⟨S, h1, h2, h3, h4, h5⟩
  · left
    refine ⟨h2, fun c hc => ?_⟩
    rw [h1] at hs
    obtain ⟨L, hL, z, _, ez⟩ := hs.maximal c hc (fun g hg => by simp at hg)
    rw [List.sublist_nil] at hL
    subst hL
    symm
    refine canon_inj (k := z) ⟨fun g hg => by simp at hg, List.Pairwise.nil⟩ hc.canonical ?_
    rw [ez]; rfl
  · right
    refine ⟨S, h1, by rw [h2]; exact hs, by rw [h2]; exact h4, by rw [h2, h3]; simp⟩

/-- C56: when no product of X gates is a symmetry, the tapered qubits are distinct, listed in descending order, on the register, and
the X gate on each anticommutes with its own generator and commutes with all the others. -/
theorem C56_pairs (o : SQOperator.DescSort) (H : QubitOperator) (hH : ∀ t ∈ H, t.2.Canonical) (least : Bool)
    (hx : ∀ c, IsXSymmetry H c → c = []) : ∃ N, ∀ fuel ≥ N, ∀ S, findZ2 o fuel H least = .ok S → TaperPairs H.numQubits S.generators S.sigmaX := by
  refine ⟨2 * H.numQubits + 1, fun fuel hf S hS => ?_⟩
  obtain ⟨G, hG, e⟩ := findZ2_shape o H least fuel (by omega)
  have hs := SymmetryGenerators.perm (gens_perm o H.numQubits G least) (generators_spec H hH hG)
  rw [e] at hS
  rcases finish_ok (gens := (o.perm (sigmaX H.numQubits G least)).map fun r => genc H.numQubits (G.e r))
      (sig := (o.perm (sigmaX H.numQubits G least)).map fun r => (sigmaX H.numQubits G least).getD r 0) (by simp)
      (fun g hg => (hs.symmetry g hg).canonical) with ⟨h1, h2⟩ | ⟨S', h1, h2, h3, h4, h5⟩
  · rw [h2] at hS; cases hS
  · rw [h1] at hS; cases hS
    rw [h2, h3]
    exact pairs_spec o H hH least hG hx

end Taper
end QF
