import Verif.Props.TaperUnitary

/-! C66: the unitary of `find_Z2_symmetries`. -/
namespace QF
namespace Taper

theorem opX_commute (s x : ℕ) : Commute (opX s) (opX x) := by
  by_cases hxs : s = x
  · subst hxs; exact Commute.refl _
  · have := pauliL_comm (s := "X") (s' := "X") hxs; simpa using this

/-- what the final theorems need of the pairs -/
theorem pairs_facts {H : QubitOperator} {gens : List Circuit} {sig : List ℕ} (hs : SymmetryGenerators H gens) (hp : TaperPairs H.numQubits gens sig) :
    (∀ t ∈ gens.zip sig, t.1.Canonical ∧ AntiPair (opPair t) ∧ IsAdj H.numQubits (opPair t).1 (opPair t).1 ∧ IsAdj H.numQubits (opPair t).2 (opPair t).2) ∧
    (gens.zip sig).Pairwise (fun t u => CommPairs (opPair t) (opPair u)) := by
  have hl := hp.length
  have get : ∀ i (hi : i < (gens.zip sig).length), ∃ (h1 : i < gens.length) (h2 : i < sig.length), (gens.zip sig)[i] = (gens[i], sig[i]) := by
    intro i hi
    have h1 : i < gens.length := by rw [List.length_zip] at hi; omega
    have h2 : i < sig.length := by omega
    exact ⟨h1, h2, List.getElem_zip ..⟩
  constructor
  · intro t ht
    obtain ⟨i, hi, rfl⟩ := List.getElem_of_mem ht
    obtain ⟨h1, h2, e⟩ := get i hi
    rw [e]
    have sy := hs.symmetry gens[i] (List.getElem_mem h1)
    have an := hp.anti i h1
    rw [List.getD_eq_getElem _ _ h2] at an
    exact ⟨sy.canonical, ⟨canon_sq sy.canonical, opX_sq _, an⟩, IsAdj.canonical sy.canonical sy.qubits, IsAdj.opX (hp.lt _ (List.getElem_mem h2))⟩
  · rw [List.pairwise_iff_getElem]
    intro i j hi hj hij
    obtain ⟨h1, h2, e⟩ := get i hi
    obtain ⟨h1', h2', e'⟩ := get j hj
    rw [e, e']
    have c1 := hp.comm i h1 j h1' (by omega)
    have c2 := hp.comm j h1' i h1 (by omega)
    rw [List.getD_eq_getElem _ _ h2'] at c1
    rw [List.getD_eq_getElem _ _ h2] at c2
    exact ⟨hs.abelian _ (List.getElem_mem h1) _ (List.getElem_mem h1'), c1, c2.symm, opX_commute _ _⟩

theorem finish_unitary {H : QubitOperator} {gens : List Circuit} {sig : List ℕ} (hs : SymmetryGenerators H gens) (hp : TaperPairs H.numQubits gens sig)
    (h79 : gens.length ≤ 79) {S : Symmetries} (hS : finish gens sig = .ok S) :
    S.generators = gens ∧ S.sigmaX = sig ∧ Chain gens.length S.unitary (((gens.zip sig).map opPair).map hadPair).prod [] := by
  obtain ⟨f1, f2⟩ := pairs_facts hs hp
  have hl := hp.length
  cases gens with
  | nil => cases hS
  | cons g gens =>
    cases sig with
    | nil => simp at hl
    | cons s sig =>
      rw [List.zip_cons_cons] at f1 f2
      rw [List.pairwise_cons] at f2
      have hg := f1 (g, s) (by simp)
      have c0 := chain_first (g := g) (s := s) (later := (gens.zip sig).map Prod.snd) hg.1 hg.2.1.anti (by
        intro x hx
        obtain ⟨u, hu, rfl⟩ := List.mem_map.1 hx
        exact (f2.1 u hu).2.1)
      have hzl : (gens.zip sig).length = gens.length := by rw [List.length_zip]; simp at hl; omega
      obtain ⟨W, e, c⟩ := chain_fold (gens.zip sig) 1 _ _ c0 (by rw [hzl]; simp at h79; omega)
        (fun t ht => ⟨(f1 t (by simp [ht])).1, (f1 t (by simp [ht])).2.1.anti⟩) (f2.2.imp fun h => h.2.1)
      unfold finish at hS
      simp only [List.zip_cons_cons, List.map_cons] at hS
      rw [addOp_nil, e] at hS
      cases hS
      refine ⟨rfl, rfl, ?_⟩
      rw [hzl, show 1 + gens.length = (g :: gens).length by simp; omega] at c
      simpa [opPair] using c

theorem chain_op {k : ℕ} {W : QubitOperator} {P : Op} {l : List ℕ} (h : Chain k W P l) : W.op = P := by
  rw [← h.op]
  unfold QubitOperator.op QubitOperator.opLR
  congr 1
  apply List.map_congr_left
  intro t ht
  rw [(h.can t ht).op_eq]

theorem findZ2_chain (o : SQOperator.DescSort) (H : QubitOperator) (hH : ∀ t ∈ H, t.2.Canonical) (least : Bool)
    (hx : ∀ c, IsXSymmetry H c → c = []) {fuel : ℕ} (hf : 2 * H.numQubits + 1 ≤ fuel) {S : Symmetries} (hS : findZ2 o fuel H least = .ok S)
    (h79 : S.generators.length ≤ 79) : SymmetryGenerators H S.generators ∧ TaperPairs H.numQubits S.generators S.sigmaX ∧
      Chain S.generators.length S.unitary (((S.generators.zip S.sigmaX).map opPair).map hadPair).prod [] := by
  obtain ⟨G, hG, e⟩ := findZ2_shape o H least fuel (by omega)
  have hs := SymmetryGenerators.perm (gens_perm o H.numQubits G least) (generators_spec H hH hG)
  have hp := pairs_spec o H hH least hG hx
  rw [e] at hS
  have hgen : S.generators = (o.perm (sigmaX H.numQubits G least)).map fun r => genc H.numQubits (G.e r) := by
    rcases finish_ok (gens := (o.perm (sigmaX H.numQubits G least)).map fun r => genc H.numQubits (G.e r))
      (sig := (o.perm (sigmaX H.numQubits G least)).map fun r => (sigmaX H.numQubits G least).getD r 0) (by simp)
      (fun g hg => (hs.symmetry g hg).canonical) with ⟨h1, h2⟩ | ⟨S', h1, h2, h3, h4, h5⟩
    · rw [h2] at hS; cases hS
    · rw [h1] at hS; cases hS; exact h2
  rw [hgen] at h79
  obtain ⟨e1, e2, ch⟩ := finish_unitary hs hp h79 hS
  rw [← e1] at hs
  rw [← e1, ← e2] at hp ch
  exact ⟨hs, hp, ch⟩

/-- C66: for every Hamiltonian of canonical Pauli strings without a symmetry made of X gates only and with fewer than 80
generators, the unitary returned by `find_Z2_symmetries` is Hermitian and squares to the identity (hence is unitary), and turns
each generator into the X gate on its qubit. -/
theorem C66_unitary (o : SQOperator.DescSort) (H : QubitOperator) (hH : ∀ t ∈ H, t.2.Canonical) (least : Bool)
    (hx : ∀ c, IsXSymmetry H c → c = []) : ∃ N, ∀ fuel ≥ N, ∀ S, findZ2 o fuel H least = .ok S → S.generators.length ≤ 79 →
      S.unitary.op * S.unitary.op = 1 ∧ IsAdj H.numQubits S.unitary.op S.unitary.op ∧
      ∀ i (hi : i < S.generators.length), S.unitary.op * (S.generators[i]).op * S.unitary.op = opX (S.sigmaX.getD i 0) := by
  refine ⟨2 * H.numQubits + 1, fun fuel hf S hS h79 => ?_⟩
  obtain ⟨hs, hp, ch⟩ := findZ2_chain o H hH least hx hf hS h79
  obtain ⟨f1, f2⟩ := pairs_facts hs hp
  have ha : ∀ t ∈ (S.generators.zip S.sigmaX).map opPair, AntiPair t := by
    intro t ht
    obtain ⟨u, hu, rfl⟩ := List.mem_map.1 ht
    exact (f1 u hu).2.1
  have hc : ((S.generators.zip S.sigmaX).map opPair).Pairwise CommPairs := List.pairwise_map.2 f2
  obtain ⟨p1, p2, _⟩ := pairs_prod _ ha hc
  rw [chain_op ch]
  refine ⟨p1, IsAdj.pairs _ ?_ ha hc, ?_⟩
  · intro t ht
    obtain ⟨u, hu, rfl⟩ := List.mem_map.1 ht
    exact (f1 u hu).2.2
  · intro i hi
    have h2 : i < S.sigmaX.length := by rw [hp.length]; exact hi
    have hm : (S.generators[i], S.sigmaX[i]) ∈ S.generators.zip S.sigmaX := by
      have := List.getElem_zip (l := S.generators) (l' := S.sigmaX) (i := i) (h := by rw [List.length_zip]; omega)
      rw [← this]; exact List.getElem_mem _
    have := p2 _ (List.mem_map.2 ⟨_, hm, rfl⟩)
    simp only [opPair] at this
    rw [(hs.symmetry _ (List.getElem_mem hi)).canonical.op_eq, this, mul_assoc, p1, mul_one, List.getD_eq_getElem _ _ h2]

theorem descending_length : ∀ (l : List ℕ) (n : ℕ), l.Pairwise (· > ·) → (∀ s ∈ l, s < n) → l.length ≤ n
  | [], _, _, _ => Nat.zero_le _
  | a :: l, n, hp, hl => by
    rw [List.pairwise_cons] at hp
    have := descending_length l a hp.2 (fun s hs => hp.1 s hs)
    have := hl a (by simp)
    rw [List.length_cons]; omega

/-- the bound on the number of generators holds whenever there are fewer than 80 qubits -/
theorem C66_small (o : SQOperator.DescSort) (H : QubitOperator) (hH : ∀ t ∈ H, t.2.Canonical) (least : Bool)
    (hx : ∀ c, IsXSymmetry H c → c = []) : ∃ N, ∀ fuel ≥ N, ∀ S, findZ2 o fuel H least = .ok S → S.generators.length ≤ H.numQubits := by
  obtain ⟨N, h⟩ := C56_pairs o H hH least hx
  refine ⟨N, fun fuel hf S hS => ?_⟩
  have hp := h fuel hf S hS
  rw [← hp.length]
  exact descending_length _ _ hp.descending hp.lt

/-- the Ising Hamiltonian `Z₀ + Z₁ + X₀ X₁` -/
noncomputable def isingH : QubitOperator := [(1, [gZ 0]), (1, [gZ 1]), (1, [gX 0, gX 1])]

theorem single_canonical {l : String} (hl : l = "X" ∨ l = "Y" ∨ l = "Z") {q : ℕ} {g : Gate} (hg : makeGate l q q 0 = .ok g) : Circuit.Canonical [g] := by
  have hgt : g.label = l ∧ g.target = q := by
    rcases hl with rfl | rfl | rfl
    · have := (make_X q 0).symm.trans hg; cases this; exact ⟨rfl, rfl⟩
    · have := (make_Y q 0).symm.trans hg; cases this; exact ⟨rfl, rfl⟩
    · have := (make_Z q 0).symm.trans hg; cases this; exact ⟨rfl, rfl⟩
  refine ⟨fun x hx => ?_, by simp⟩
  rw [List.mem_singleton] at hx; subst hx
  rw [hgt.1, hgt.2]
  exact ⟨hl, hg⟩

theorem ising_canonical : ∀ t ∈ isingH, t.2.Canonical := by
  intro t ht
  simp only [isingH, List.mem_cons, List.not_mem_nil, or_false] at ht
  rcases ht with rfl | rfl | rfl
  · exact single_canonical (.inr (.inr rfl)) (make_Z 0 0)
  · exact single_canonical (.inr (.inr rfl)) (make_Z 1 0)
  · refine ⟨fun x hx => ?_, by simp [gX]⟩
    simp only [List.mem_cons, List.not_mem_nil, or_false] at hx
    rcases hx with rfl | rfl
    · exact ⟨.inl rfl, make_X 0 0⟩
    · exact ⟨.inl rfl, make_X 1 0⟩

theorem letterAt_mem {c : Circuit} (hc : c.Canonical) {g : Gate} (hg : g ∈ c) : letterAt c g.target = g.label := by
  unfold letterAt
  have hfind : c.find? (fun x => x.target = g.target) = some g := by
    rcases hf : c.find? (fun x => x.target = g.target) with _ | g'
    · rw [List.find?_eq_none] at hf; have := hf g hg; simp at this
    · have e1 : g'.target = g.target := by simpa using List.find?_some hf
      have m1 := List.mem_of_find?_eq_some hf
      have pw := hc.sorted
      obtain ⟨i, hi, rfl⟩ := List.getElem_of_mem hg
      obtain ⟨j, hj, rfl⟩ := List.getElem_of_mem m1
      rcases Nat.lt_trichotomy i j with hij | hij | hij
      · have := List.pairwise_iff_getElem.1 pw i j hi hj hij; omega
      · subst hij; exact hf
      · have := List.pairwise_iff_getElem.1 pw j i hj hi hij; omega
  rw [hfind]

theorem eps_of_commute {c : Circuit} (hc : c.Canonical) {m : String} (hm : IsXYZ m) {q : ℕ} (h : Commute (pauliL m q) c.opLR) : eps (letterAt c q) m = 1 := by
  have h1 := canon_conj hc hm q
  rw [h.eq, mul_assoc, pauliL_sq (.inr hm), mul_one] at h1
  by_contra hne
  have h2 : (1 - eps (letterAt c q) m) • c.opLR = 0 := by
    have : (1 - eps (letterAt c q) m) • c.opLR = c.opLR - eps (letterAt c q) m • c.opLR := by module
    rw [this, ← h1, sub_self]
  rcases smul_eq_zero.1 h2 with h3 | h3
  · exact hne (sub_eq_zero.1 h3).symm
  · exact opLR_ne_zero hc h3

theorem ising_numQubits : QubitOperator.numQubits isingH = 2 := by
  simp [isingH, QubitOperator.numQubits, Circuit.numQubits, gZ, gX]

theorem gZ_opLR (s : ℕ) : Circuit.opLR [gZ s] = opZ s := by
  have := make_pauli_op (s := "Z") (t := s) (.inr (.inr rfl)) (make_Z s 0)
  rw [Circuit.opLR_cons, Circuit.opLR_nil, mul_one, this, pauliL_Z]

theorem ising_no_x : ∀ c, IsXSymmetry isingH c → c = [] := by
  rintro c ⟨hc, hx⟩
  cases c with
  | nil => rfl
  | cons g c =>
    exfalso
    have hq := hc.qubits g (by simp)
    rw [ising_numQubits] at hq
    have hl := letterAt_mem hc.canonical (g := g) (by simp)
    rw [hx g (by simp)] at hl
    have hz : Commute (pauliL "Z" g.target) (Circuit.opLR (g :: c)) := by
      rw [pauliL_Z, ← gZ_opLR]
      have : g.target = 0 ∨ g.target = 1 := by omega
      rcases this with h | h
      · rw [h]; exact hc.commute (1, [gZ 0]) (by simp [isingH])
      · rw [h]; exact hc.commute (1, [gZ 1]) (by simp [isingH])
    have := eps_of_commute hc.canonical (.inr (.inr rfl)) hz
    rw [hl] at this
    rw [eps, if_neg (by decide)] at this
    norm_num at this

/-- C56 and C66 on `Z₀ + Z₁ + X₀ X₁`: a symmetry is found and the unitary is as stated -/
theorem C66_example (o : SQOperator.DescSort) (least : Bool) : ∃ N, ∀ fuel ≥ N, ∃ S, findZ2 o fuel isingH least = .ok S ∧
    S.generators ≠ [] ∧ S.unitary.op * S.unitary.op = 1 := by
  obtain ⟨N1, h1⟩ := C56_generators o isingH ising_canonical least
  obtain ⟨N2, h2⟩ := C66_unitary o isingH ising_canonical least ising_no_x
  obtain ⟨N3, h3⟩ := C66_small o isingH ising_canonical least ising_no_x
  refine ⟨N1 + N2 + N3, fun fuel hf => ?_⟩
  rcases h1 fuel (by omega) with ⟨_, hno⟩ | ⟨S, e, hs, hne, _⟩
  · exfalso
    -- Z₀ Z₁ is a symmetry
    have hcan : Circuit.Canonical [gZ 0, gZ 1] := by
      refine ⟨fun x hx => ?_, by simp [gZ]⟩
      simp only [List.mem_cons, List.not_mem_nil, or_false] at hx
      rcases hx with rfl | rfl
      · exact ⟨.inr (.inr rfl), make_Z 0 0⟩
      · exact ⟨.inr (.inr rfl), make_Z 1 0⟩
    have ezz : Circuit.opLR [gZ 0, gZ 1] = opZ 0 * opZ 1 := by
      rw [Circuit.opLR_cons, gZ_opLR, make_pauli_op (s := "Z") (t := 0) (.inr (.inr rfl)) (make_Z 0 0), pauliL_Z]
    have exx : Circuit.opLR [gX 0, gX 1] = opX 0 * opX 1 := by
      rw [Circuit.opLR_cons, gX_opLR, make_pauli_op (s := "X") (t := 0) (.inl rfl) (make_X 0 0), pauliL_X]
    have zz : Commute (opZ 0) (opZ 1) := by
      have := pauliL_comm (s := "Z") (s' := "Z") (t := 0) (t' := 1) (by decide); simpa [pauliL_Z] using this
    have hsym : IsSymmetry isingH [gZ 0, gZ 1] := by
      refine ⟨hcan, ?_, ?_⟩
      · rw [ising_numQubits]
        intro g hg
        simp only [List.mem_cons, List.not_mem_nil, or_false] at hg
        rcases hg with rfl | rfl <;> decide
      · intro t ht
        simp only [isingH, List.mem_cons, List.not_mem_nil, or_false] at ht
        rw [ezz]
        rcases ht with rfl | rfl | rfl
        · simp only [gZ_opLR]; exact (Commute.refl _).mul_right zz
        · simp only [gZ_opLR]; exact zz.symm.mul_right (Commute.refl _)
        · simp only [exx]
          apply Op.ext'; intro ψ I
          simp only [Module.End.mul_apply, opX_apply, opZ_apply]
          have b0 : (flipBit (flipBit I 0) 1).testBit 0 = !I.testBit 0 := by
            simp only [testBit_flipBit]; simp only [zero_ne_one, one_ne_zero, if_false, if_true]
          have b1 : (flipBit (flipBit I 0) 1).testBit 1 = !I.testBit 1 := by
            simp only [testBit_flipBit]; simp only [zero_ne_one, one_ne_zero, if_false, if_true]
          rw [b0, b1]
          cases I.testBit 0 <;> cases I.testBit 1 <;> simp
    exact absurd (hno _ hsym) (by simp)
  · have hb := h3 fuel (by omega) S e
    rw [ising_numQubits] at hb
    exact ⟨S, e, hne, (h2 fuel (by omega) S e (by omega)).1⟩

/-- the Hamiltonian `X₀` -/
noncomputable def xH : QubitOperator := [(1, [gX 0])]

theorem xH_numQubits : QubitOperator.numQubits xH = 1 := by
  simp [xH, QubitOperator.numQubits, Circuit.numQubits, gX]

theorem xH_symmetry {c : Circuit} (h : IsSymmetry xH c) : c = [] ∨ c = [gX 0] := by
  have h0 : ∀ g ∈ c, g.target = 0 := by
    intro g hg
    have := h.qubits g hg
    rw [xH_numQubits] at this
    omega
  have hcomm : Commute (pauliL "X" 0) c.opLR := by
    rw [pauliL_X, ← gX_opLR]
    exact h.commute (1, [gX 0]) (by simp [xH])
  have he := eps_of_commute h.canonical (.inl rfl) hcomm
  cases c with
  | nil => exact .inl rfl
  | cons g c =>
    right
    have hg0 := h0 g (by simp)
    have hc : c = [] := by
      cases c with
      | nil => rfl
      | cons g' c =>
        have := h.canonical.sorted
        rw [List.pairwise_cons] at this
        have := this.1 g' (by simp)
        rw [hg0, h0 g' (by simp)] at this
        omega
    subst hc
    have hl := letterAt_mem h.canonical (g := g) (by simp)
    rw [hg0] at hl
    rw [hl] at he
    obtain ⟨h1, h2⟩ := h.canonical.gates g (by simp)
    rw [hg0] at h2
    have hlab : g.label = "X" := by
      rcases h1 with h1 | h1 | h1
      · exact h1
      · rw [h1, eps, if_neg (by decide)] at he; norm_num at he
      · rw [h1, eps, if_neg (by decide)] at he; norm_num at he
    rw [hlab] at h2
    have := h2.symm.trans (make_X 0 0)
    cases this
    rfl

/-- F31: without the hypothesis on X symmetries the claim is false: for the Hamiltonian `X₀`, for either order of tapering, the
returned "unitary" does not square to the identity. -/
theorem C66_x_symmetry_counterexample (o : SQOperator.DescSort) (least : Bool) : ∃ N, ∀ fuel ≥ N, ∃ S,
    findZ2 o fuel xH least = .ok S ∧ S.unitary.op * S.unitary.op ≠ 1 := by
  have hH : ∀ t ∈ xH, t.2.Canonical := by
    intro t ht
    simp only [xH, List.mem_singleton] at ht
    subst ht; exact gX_canonical 0
  refine ⟨2 * xH.numQubits + 1, fun fuel hf => ?_⟩
  obtain ⟨G, hG, e⟩ := findZ2_shape o xH least fuel (by omega)
  have hs := SymmetryGenerators.perm (gens_perm o (QubitOperator.numQubits xH) G least) (generators_spec xH hH hG)
  have hl : ((o.perm (sigmaX (QubitOperator.numQubits xH) G least)).map fun r => (sigmaX (QubitOperator.numQubits xH) G least).getD r 0).length =
    ((o.perm (sigmaX (QubitOperator.numQubits xH) G least)).map fun r => genc (QubitOperator.numQubits xH) (G.e r)).length := by simp
  rw [e]
  revert hs hl
  generalize ((o.perm (sigmaX (QubitOperator.numQubits xH) G least)).map fun r => genc (QubitOperator.numQubits xH) (G.e r)) = gens
  generalize ((o.perm (sigmaX (QubitOperator.numQubits xH) G least)).map fun r => (sigmaX (QubitOperator.numQubits xH) G least).getD r 0) = sig
  intro hs hl
  have hall : ∀ g ∈ gens, g = [gX 0] := by
    intro g hg
    rcases xH_symmetry (hs.symmetry g hg) with h | h
    · exfalso
      subst h
      refine hs.independent [[]] (by simpa using hg) (by simp) 1 ?_
      simp [Circuit.opLR]
    · exact h
  have hgens : gens = [[gX 0]] := by
    match gens, hs, hall with
    | [], hs, _ =>
      exfalso
      have sy : IsSymmetry xH [gX 0] := ⟨gX_canonical 0, by rw [xH_numQubits]; intro g hg; rw [List.mem_singleton] at hg; subst hg; decide, by
        intro t ht
        simp only [xH, List.mem_singleton] at ht
        subst ht; exact Commute.refl _⟩
      obtain ⟨L, hL, z, hz, ez⟩ := hs.maximal _ sy (by simp)
      rw [List.sublist_nil] at hL
      subst hL
      have := canon_inj (k := z) (s := []) ⟨fun g hg => by simp at hg, List.Pairwise.nil⟩ (gX_canonical 0) (by rw [ez]; rfl)
      simp at this
    | [g], _, hall => rw [hall g (by simp)]
    | g :: g' :: l, hs, hall =>
      exfalso
      refine hs.independent [g, g'] (by simp) (by simp) 1 ?_
      rw [hall g (by simp), hall g' (by simp)]
      simp [gX_opLR, opX_sq]
  subst hgens
  match sig, hl with
  | [s], _ =>
    refine ⟨{ generators := [[gX 0]], sigmaX := [s], unitaries := [unitaryTerm ([gX 0], s)], unitary := unitaryTerm ([gX 0], s) }, ?_, ?_⟩
    · unfold finish
      simp only [List.zip_cons_cons, List.map_cons, List.zip_nil_right, List.map_nil]
      rw [addOp_nil]; rfl
    · intro h
      have hop : (unitaryTerm ([gX 0], s)).op = hadPair (opX 0, opX s) := by
        rw [← gX_opLR 0, ← unitaryTerm_opLR]
        unfold QubitOperator.op QubitOperator.opLR
        congr 1
      simp only at h
      rw [hop] at h
      unfold hadPair at h
      rw [smul_mul_smul_comm, sqrt2_sq, add_mul, mul_add, mul_add, opX_sq, opX_sq, (opX_commute s 0).eq] at h
      have h2 : opX 0 * opX s = 0 := by
        have e3 : (1 / 2 : ℂ) • (1 + opX 0 * opX s + (opX 0 * opX s + 1)) = 1 + opX 0 * opX s := by module
        rw [e3] at h
        simpa using h
      have h3 : opX 0 * opX s * opX s = opX 0 := by rw [mul_assoc, opX_sq, mul_one]
      rw [h2, zero_mul] at h3
      have := opX_sq 0
      rw [← h3, zero_mul] at this
      exact op_one_ne_zero this.symm

end Taper
end QF
