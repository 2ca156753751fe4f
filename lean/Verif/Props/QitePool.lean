import Verif.Props.QiteRun
import Verif.Props.UccAnsatz
import Verif.Props.GSDPool
import Verif.Props.QubitPool

/-!
C82: the expansion pools of quantum imaginary time evolution.
-/
namespace QF
open SQOperator SQOpPool QubitOperator QubitOpPool
namespace QiteAlg

theorem ysign_numY (s : Circuit) : ysign s = (-1) ^ s.numY := by
  induction s with
  | nil => simp [ysign, Circuit.numY]
  | cons g s ih =>
    have : ysign (g :: s) = (if g.label = "Y" then -1 else 1) * ysign s := rfl
    rw [this, ih]
    unfold Circuit.numY
    rw [List.countP_cons]
    by_cases h : g.label = "Y"
    · simp [h, pow_succ]
    · simp [h]

theorem numY_odd {s : Circuit} (h : ysign s = -1) : Odd s.numY := by
  rcases Nat.even_or_odd s.numY with he | ho
  · rw [ysign_numY, he.neg_one_pow] at h; norm_num at h
  · exact ho

/-- the strings of an excitation operator have an odd number of Y -/
theorem exc_odd {o : DescSort} {n : ℕ} {c a : List ℕ} (h : Excit n c a) (hr : c.length ≤ 19) {q : Bool} {t : ℂ} {B : QubitOperator}
    (hB : GroupOf o q (t, excTerms c a) B) : ∀ u ∈ B, Odd u.2.numY := by
  obtain ⟨Q, R, D, e, -, -, -, -, hp⟩ := hB
  obtain ⟨Q', e', nQ, hQ, hl⟩ := jw_exc o h hr q
  simp only at e hp
  rw [e] at e'; cases e'
  have hs : RealSkew (lmask (caList c a)) Q.opLR := by rw [hQ]; exact kappa_skew q c a
  have h0 : ∀ t ∈ Q, t.1 ≠ 0 := fun t ht => ne_zero_of_gt (hl t ht).1
  have h1 := skew_strings nQ.canonical (Normal.nodup nQ) hs
  intro x hx
  obtain ⟨u, hu, rfl⟩ := List.mem_map.1 (hp.mem_iff.1 (List.mem_append_left D hx))
  exact numY_odd (h1 u hu (h0 u hu)).2.2

theorem copyString_ok {c : Circuit} (hc : ∀ g ∈ c, PauliGate g) : copyString c = .ok (c, c.numY) := by
  unfold copyString
  have key : ∀ (c d : Circuit) (m : ℕ), (∀ g ∈ c, PauliGate g) → c.foldlM (fun (s : Circuit × ℕ) g => (do
      let g' ← pyGate2 g.label g.target g.control
      pure (s.1.addGate g', if g.label = "Y" then s.2 + 1 else s.2) : Except Exc (Circuit × ℕ))) (d, m) = .ok (d ++ c, m + c.numY) := by
    intro c
    induction c with
    | nil => intro d m _; simp [pure, Except.pure, Circuit.numY]
    | cons g c ih =>
      intro d m hc
      have hg := hc g (by simp)
      have e : pyGate2 g.label g.target g.control = .ok g := by
        unfold pyGate2
        rw [hg.control, if_neg (by rcases hg.letter with h | h | h <;> rw [h] <;> decide),
          if_pos ⟨rfl, by rcases hg.letter with h | h | h <;> rw [h] <;> decide⟩]
        exact hg.make
      rw [List.foldlM_cons, e, except_ok_bind]
      simp only [pure, Except.pure, except_ok_bind]
      have ih' := ih (d ++ [g]) (if g.label = "Y" then m + 1 else m) (fun g hg => hc g (by simp [hg]))
      simp only [pure, Except.pure] at ih'
      show List.foldlM _ (d ++ [g], _) c = _
      rw [ih']
      congr 2
      · simp
      · unfold Circuit.numY
        rw [List.countP_cons]
        by_cases h : g.label = "Y"
        · simp [h]; omega
        · simp [h]
  have := key c [] 0 hc
  simpa using this

theorem filter_ok (T : QubitOperator) (hT : ∀ t ∈ T, (∀ g ∈ t.2, PauliGate g)) (sig : QubitOpPool) :
    T.foldlM filterStep sig = .ok (sig ++ poolOf ((T.filter fun t => decide (Odd t.2.numY)).map Prod.snd)) := by
  induction T generalizing sig with
  | nil => simp [pure, Except.pure, poolOf]
  | cons t T ih =>
    have e : filterStep sig t = .ok (if Odd t.2.numY then sig ++ [(1, [(1, t.2)])] else sig) := by
      unfold filterStep
      rw [copyString_ok (hT t (by simp)), except_ok_bind]
      simp only [Nat.odd_iff, pure, Except.pure]
      split_ifs <;> rfl
    rw [List.foldlM_cons, e, except_ok_bind, ih (fun t ht => hT t (by simp [ht]))]
    by_cases h : Odd t.2.numY
    · rw [if_pos h, List.filter_cons_of_pos (by simpa using h)]
      simp [poolOf]
    · rw [if_neg h, List.filter_cons_of_neg (by simpa using h)]

/-- the groups of Pauli strings of a list of excitations: each is the Jordan-Wigner transform of its operator, with canonical strings on `n` qubits, all with an odd number of Y -/
def GroupsOf (n : ℕ) (xs : List (List ℕ × List ℕ)) (Bs : List QubitOperator) : Prop :=
  List.Forall₂ (fun (x : List ℕ × List ℕ) (B : QubitOperator) => B.opLR = kappa false x.1 x.2 ∧ (B.map Prod.snd).Nodup ∧
    ∀ u ∈ B, u.1 ≠ 0 ∧ u.2.Canonical ∧ Odd u.2.numY ∧ u.2.PauliString n) xs Bs

theorem sq_pool (o : DescSort) (so : SortOracle) {n : ℕ} (P : SQOpPool) (xs : List (List ℕ × List ℕ)) (hP : P.terms = xs.map fun x => ((1 : ℂ), excTerms x.1 x.2))
    (hx : ∀ x ∈ xs, Excit n x.1 x.2 ∧ x.1.length ≤ 8) :
    ∃ Bs T, SQOpPool.getQubitOperator o so P "commuting_grp_lex" false false = .ok T ∧ GroupsOf n xs Bs ∧ T = Bs.flatten ∧
      T.foldlM filterStep [] = .ok (poolOf (Bs.flatten.map Prod.snd)) := by
  have hs : P.Sound := by
    intro t ht
    rw [hP] at ht
    obtain ⟨x, hx', rfl⟩ := List.mem_map.1 ht
    obtain ⟨h1, h2⟩ := hx x hx'
    refine ⟨exc_distinct h1, ?_⟩
    intro u hu
    have hr := h1.rank
    unfold excTerms at hu
    split_ifs at hu <;> simp only [List.mem_cons, List.not_mem_nil, or_false] at hu <;> rcases hu with rfl | rfl <;> simp <;> omega
  obtain ⟨Bs, e, hf⟩ := C68_commuting_grp_lex o so P false false hs
  rw [hP, List.forall₂_map_left_iff] at hf
  have hG : GroupsOf n xs Bs := by
    clear e hP hs
    induction hf with
    | nil => exact .nil
    | @cons x B xs Bs hB _ ih =>
      obtain ⟨h1, h2⟩ := hx x (by simp)
      refine .cons ?_ (ih fun x hx' => hx x (by simp [hx']))
      have hB' : GroupOf o false (((1 : ℝ) : ℂ), excTerms x.1 x.2) B := by simpa using hB
      obtain ⟨g, d1⟩ := exc_group h1 (by omega) hB'
      have hres : AmpResolved x 1 := by
        refine .inr ?_
        have hle : (x.1 ++ x.2).toFinset.card ≤ 16 := by
          refine le_trans (List.toFinset_card_le _) ?_
          have := h1.rank
          rw [List.length_append]; omega
        have : (2 : ℝ) ^ (x.1 ++ x.2).toFinset.card ≤ 2 ^ 16 := pow_le_pow_right₀ (by norm_num) hle
        rw [abs_one]
        calc (1e-12 : ℝ) * 2 ^ (x.1 ++ x.2).toFinset.card ≤ 1e-12 * 2 ^ 16 := by gcongr
          _ < 2 * 1 := by norm_num
      unfold usedAmp at d1
      rw [if_pos hres, Complex.ofReal_one, one_smul] at d1
      obtain ⟨Q, R, D', -, -, -, hnd, hBc, -⟩ := hB'
      refine ⟨d1, ?_, fun u hu => ⟨ne_zero_of_gt (hBc u hu).2, g.can u hu, exc_odd h1 (by omega) hB u hu, ?_, ?_, ?_⟩⟩
      · rw [List.map_append] at hnd; exact hnd.of_append_left
      · exact (canonical_iff.1 (g.can u hu)).1
      · exact List.pairwise_map.2 ((canonical_iff.1 (g.can u hu)).2.imp fun h => Nat.ne_of_lt h)
      · intro gg hg
        have ht := g.tgt u hu gg hg
        have := ((canonical_iff.1 (g.can u hu)).1 gg hg).control
        exact ⟨ht, by rw [this]; exact ht⟩
  have hmem : ∀ t ∈ Bs.flatten, Odd t.2.numY ∧ ∀ g ∈ t.2, PauliGate g := by
    intro t ht
    obtain ⟨B, hB, ht⟩ := List.mem_flatten.1 ht
    obtain ⟨x, -, -, -, hu⟩ := forall2_mem_right hG hB
    exact ⟨(hu t ht).2.2.1, (hu t ht).2.2.2.gates⟩
  refine ⟨Bs, _, e, hG, rfl, ?_⟩
  rw [filter_ok _ (fun t ht => (hmem t ht).2), List.nil_append, List.filter_eq_self.2 (by intro t ht; simpa using (hmem t ht).1)]

theorem groups_strings {n : ℕ} {xs : List (List ℕ × List ℕ)} {Bs : List QubitOperator} (h : GroupsOf n xs Bs) : ∀ c ∈ Bs.flatten.map Prod.snd, c.PauliString n ∧ Odd c.numY := by
  intro c hc
  obtain ⟨t, ht, rfl⟩ := List.mem_map.1 hc
  obtain ⟨B, hB, ht⟩ := List.mem_flatten.1 ht
  obtain ⟨x, -, -, -, hu⟩ := forall2_mem_right h hB
  exact ⟨(hu t ht).2.2.2, (hu t ht).2.2.1⟩

/-- the object after `set_orb_spaces(ref)` on an empty pool -/
noncomputable def orbSpaces (ref : List ℕ) : Except Exc SQOpPool := SQOpPool.setOrbSpaces { terms := [] } ref

theorem orbSpaces_ok {ref : List ℕ} {k : ℕ} (h : ref.length = 2 * k) : ∃ P, orbSpaces ref = .ok P ∧ P.terms = [] ∧ P.nSpinorb = 2 * k ∧ P.orbIrreps = List.replicate k 0 ∧
    P.refInt = (ref.foldl SQOpPool.refStep (0, 1)).1 := by
  unfold orbSpaces SQOpPool.setOrbSpaces
  simp only
  rw [if_neg (by omega)]
  refine ⟨_, rfl, rfl, h, ?_, rfl⟩
  simp [h]

/-- the types that are built from excitation operators, with the largest rank of the particle-hole ones -/
def poolRank (ty : String) : Option ℕ :=
  if ty = "SD" then some 2 else if ty = "SDT" then some 3 else if ty = "SDTQ" then some 4 else if ty = "SDTQP" then some 5 else if ty = "SDTQPH" then some 6 else none

theorem poolRank_spec {ty : String} {m : ℕ} (h : poolRank ty = some m) : SQOpPool.maxNbody ty = some m ∧ ty ≠ "GSD" ∧ ty ≠ "complete_qubit" ∧ ty ≠ "cqoy" ∧
    ty ∈ ["SD", "GSD", "SDT", "SDTQ", "SDTQP", "SDTQPH"] ∧ m ≤ 6 := by
  unfold poolRank at h
  split_ifs at h with h1 h2 h3 h4 h5
  all_goals (subst_vars; cases h; exact ⟨by decide, by decide, by decide, by decide, by decide, by decide⟩)

theorem build_sq (N : SQOpPool.NextPerm) (o : DescSort) (so : SortOracle) (fuel : ℕ) (A : QiteAlg) (h1 : A.expansionType ≠ "complete_qubit") (h2 : A.expansionType ≠ "cqoy")
    (h3 : A.expansionType ∈ ["SD", "GSD", "SDT", "SDTQ", "SDTQP", "SDTQPH"]) {P0 P : SQOpPool} (e0 : orbSpaces A.ref = .ok P0)
    (e1 : SQOpPool.fillPool N o fuel P0 A.expansionType = .ok P) (xs : List (List ℕ × List ℕ)) (hP : P.terms = xs.map fun x => ((1 : ℂ), excTerms x.1 x.2))
    (hx : ∀ x ∈ xs, Excit A.nqb x.1 x.2 ∧ x.1.length ≤ 8) :
    ∃ Bs, GroupsOf A.nqb xs Bs ∧ A.buildExpansionPool N o so fuel = .ok (poolOf (Bs.flatten.map Prod.snd)) := by
  obtain ⟨Bs, T, e2, hG, rfl, e3⟩ := sq_pool o so P xs hP hx
  refine ⟨Bs, hG, ?_⟩
  unfold buildExpansionPool
  rw [if_neg h1, if_neg h2, if_pos h3]
  unfold orbSpaces at e0
  rw [e0, except_ok_bind, e1, except_ok_bind, e2, except_ok_bind]
  exact e3

/-- C82: the pools SD, SDT, …, SDTQPH: the Pauli strings of the Jordan-Wigner transforms of the particle-hole excitations up to that rank -/
theorem C82_pool_particle_hole (N : SQOpPool.NextPerm) (o : DescSort) (so : SortOracle) (A : QiteAlg) (k m : ℕ) (hl : A.ref.length = 2 * k) (hq : A.nqb = 2 * k) (hk : k ≤ 32)
    (hm : poolRank A.expansionType = some m) : ∃ N₀, ∀ fuel, N₀ ≤ fuel → ∃ xs Bs, GroupsOf A.nqb xs Bs ∧
      A.buildExpansionPool N o so fuel = .ok (poolOf (Bs.flatten.map Prod.snd)) ∧ (∀ c ∈ Bs.flatten.map Prod.snd, c.PauliString A.nqb ∧ Odd c.numY) ∧
      let r := (A.ref.foldl SQOpPool.refStep (0, 1)).1
      xs = ((List.range (2 ^ (2 * k))).filter fun d => decide (spinVal 0 k r ≤ spinVal 0 k d ∧ spinVal 1 k r ≤ spinVal 1 k d ∧
        Allowed k r (List.replicate k 0) m d)).map fun d => (holes (2 * k) d r, holes (2 * k) r d) := by
  obtain ⟨s1, s2, s3, s4, s5, s6⟩ := poolRank_spec hm
  obtain ⟨P0, e0, p1, p2, p3, p4⟩ := orbSpaces_ok hl
  obtain ⟨N₀, hN⟩ := C49_contents N o P0 k m p2 hk (by rw [p3]; simp)
  refine ⟨N₀, fun fuel hf => ?_⟩
  have e1 := hN fuel hf
  have e1' : SQOpPool.fillPool N o fuel P0 A.expansionType = fillParticleHole N o fuel P0 m := by
    unfold SQOpPool.fillPool
    rw [if_neg s2, s1]
  rw [← e1'] at e1
  set xs := ((List.range (2 ^ (2 * k))).filter fun d => decide (spinVal 0 k P0.refInt ≤ spinVal 0 k d ∧ spinVal 1 k P0.refInt ≤ spinVal 1 k d ∧
        Allowed k P0.refInt P0.orbIrreps m d)).map fun d => (holes (2 * k) d P0.refInt, holes (2 * k) P0.refInt d) with hxs
  obtain ⟨Bs, hG, e2⟩ := build_sq N o so fuel A s3 s4 s5 e0 e1 xs (by rw [hxs, p1, List.map_map]; rfl) (by
    intro x hx
    obtain ⟨d, hd, rfl⟩ := List.mem_map.1 hx
    obtain ⟨-, -, hs, h1, h2, -⟩ := of_decide_eq_true (List.mem_filter.1 hd).2
    have hlen := sameSpin_length hs
    refine ⟨⟨holes_desc _ _ _, holes_desc _ _ _, hlen.symm, ?_, fun p hp => by rw [hq]; exact (mem_holes.1 hp).1, fun p hp => by rw [hq]; exact (mem_holes.1 hp).1⟩, by
      show (holes _ _ _).length ≤ 8; omega⟩
    intro (he : holes (2 * k) d P0.refInt = holes (2 * k) P0.refInt d)
    have hne : holes (2 * k) P0.refInt d ≠ [] := by intro h0; rw [h0] at h1; simp at h1
    obtain ⟨p, l, hpl⟩ := List.exists_cons_of_ne_nil hne
    have hp : p ∈ holes (2 * k) P0.refInt d := by rw [hpl]; simp
    have hp' := hp
    rw [← he] at hp'
    have a := (mem_holes.1 hp).2.1
    have b := (mem_holes.1 hp').2.2
    rw [a] at b; exact absurd b (by simp))
  refine ⟨xs, Bs, hG, e2, groups_strings hG, ?_⟩
  rw [hxs, p4, p3]

/-- C82: the pool GSD: the Pauli strings of the transforms of all generalised singles and doubles, each pair of inverse excitations once -/
theorem C82_pool_gsd (N : SQOpPool.NextPerm) (o : DescSort) (so : SortOracle) (fuel : ℕ) (A : QiteAlg) (k : ℕ) (hl : A.ref.length = 2 * k) (hq : A.nqb = 2 * k)
    (hm : A.expansionType = "GSD") : ∃ xs Bs, GroupsOf A.nqb xs Bs ∧ A.buildExpansionPool N o so fuel = .ok (poolOf (Bs.flatten.map Prod.snd)) ∧
      (∀ c ∈ Bs.flatten.map Prod.snd, c.PauliString A.nqb ∧ Odd c.numY) ∧ (∀ x ∈ xs, GenExc k (List.replicate k 0) x) ∧
      ∀ x, GenExc k (List.replicate k 0) x → xs.count x + xs.count (x.2, x.1) = 1 := by
  obtain ⟨P0, e0, p1, p2, p3, p4⟩ := orbSpaces_ok hl
  obtain ⟨xs, e1, h1, h2⟩ := C63_contents o P0 k p2 (by rw [p3]; simp)
  rw [p3] at h1 h2
  obtain ⟨Bs, hG, e2⟩ := build_sq N o so fuel A (by rw [hm]; decide) (by rw [hm]; decide) (by rw [hm]; decide) e0
    (by unfold SQOpPool.fillPool; rw [if_pos hm]; exact e1) xs (by rw [p1]; rfl) (by
      intro x hx
      have g := h1 x hx
      rw [hq]
      exact ⟨⟨g.desc.1, g.desc.2, by rcases g.rank with h | h <;> omega, g.ne, g.bound.1, g.bound.2⟩, by rcases g.rank with h | h <;> omega⟩)
  exact ⟨xs, Bs, hG, e2, groups_strings hG, h1, h2⟩

/-- C82: the pools of all Pauli strings (at most 6 qubits) and of all strings with an odd number of Y -/
theorem C82_pool_qubit (N : SQOpPool.NextPerm) (o : DescSort) (so : SortOracle) (fuel : ℕ) (A : QiteAlg) (hn : 0 < A.nqb) :
    (A.expansionType = "complete_qubit" → A.nqb ≤ 6 → ∃ σ, A.buildExpansionPool N o so fuel = .ok (poolOf σ) ∧ σ.Nodup ∧ σ.length = 4 ^ A.nqb ∧
      ∀ c : Circuit, c ∈ σ ↔ c.Canonical ∧ ∀ g ∈ c, g.target < A.nqb) ∧
    (A.expansionType = "cqoy" → A.nqb ≤ 15 → ∃ σ, A.buildExpansionPool N o so fuel = .ok (poolOf σ) ∧ σ.Nodup ∧
      ∀ c : Circuit, c ∈ σ ↔ c.Canonical ∧ (∀ g ∈ c, g.target < A.nqb) ∧ Odd c.numY) := by
  have inj : Function.Injective entry := by intro a b h; simpa [entry] using h
  have back : ∀ (new : QubitOpPool), (∀ t ∈ new, ∃ c : Circuit, t = entry c) → ∃ σ, new = poolOf σ ∧ ∀ c, c ∈ σ ↔ entry c ∈ new := by
    intro new
    induction new with
    | nil => intro _; exact ⟨[], rfl, by simp⟩
    | cons t new ih =>
      intro h
      obtain ⟨c, rfl⟩ := h t (by simp)
      obtain ⟨σ, rfl, hσ⟩ := ih fun t ht => h t (by simp [ht])
      exact ⟨c :: σ, rfl, fun d => by rw [List.mem_cons, List.mem_cons, inj.eq_iff, hσ]⟩
  have nd : ∀ σ : List Circuit, (poolOf σ).Nodup → σ.Nodup := fun σ h => List.Nodup.of_map _ h
  constructor
  · intro ht h6
    obtain ⟨new, e, l, d, m⟩ := C46_complete_qubit [] A.nqb hn (by omega)
    obtain ⟨σ, rfl, hσ⟩ := back new fun t ht => by obtain ⟨c, -, -, rfl⟩ := (m t).1 ht; exact ⟨c, rfl⟩
    refine ⟨σ, ?_, nd σ d, by simpa [poolOf] using l, fun c => ?_⟩
    · unfold buildExpansionPool
      rw [if_pos ht, if_neg (by omega)]; exact e
    · rw [hσ, m]
      constructor
      · rintro ⟨c', h1, h2, h3⟩; rw [inj h3]; exact ⟨h1, h2⟩
      · rintro ⟨h1, h2⟩; exact ⟨c, h1, h2, rfl⟩
  · intro ht h15
    obtain ⟨new, e, d, m⟩ := C46_cqoy [] A.nqb hn h15
    obtain ⟨σ, rfl, hσ⟩ := back new fun t ht => by obtain ⟨c, -, -, -, rfl⟩ := (m t).1 ht; exact ⟨c, rfl⟩
    refine ⟨σ, ?_, nd σ d, fun c => ?_⟩
    · unfold buildExpansionPool
      rw [if_neg (by rw [ht]; decide), if_pos ht]; exact e
    · rw [hσ, m]
      constructor
      · rintro ⟨c', h1, h2, h3, h4⟩; rw [inj h4]; exact ⟨h1, h2, h3⟩
      · rintro ⟨h1, h2, h3⟩; exact ⟨c, h1, h2, h3, rfl⟩

/-- C82: the complete pool is refused for more than 6 qubits, and any other name is refused. -/
theorem C82_pool_refused (N : SQOpPool.NextPerm) (o : DescSort) (so : SortOracle) (fuel : ℕ) (A : QiteAlg) :
    (A.expansionType = "complete_qubit" → 6 < A.nqb → A.buildExpansionPool N o so fuel = .error .valueError) ∧
    (A.expansionType ∉ ["complete_qubit", "cqoy", "SD", "GSD", "SDT", "SDTQ", "SDTQP", "SDTQPH"] → A.buildExpansionPool N o so fuel = .error .valueError) := by
  constructor
  · intro h1 h2
    unfold buildExpansionPool
    rw [if_pos h1, if_pos h2]
  · intro h
    unfold buildExpansionPool
    rw [if_neg (by intro h0; simp [h0] at h), if_neg (by intro h0; simp [h0] at h), if_neg (by intro h0; simp at h0 h; tauto)]

theorem canonical_pauliString {n : ℕ} {c : Circuit} (hc : c.Canonical) (ht : ∀ g ∈ c, g.target < n) : c.PauliString n :=
  ⟨(canonical_iff.1 hc).1, List.pairwise_map.2 ((canonical_iff.1 hc).2.imp fun h => Nat.ne_of_lt h), fun g hg => by
    have := ((canonical_iff.1 hc).1 g hg).control
    exact ⟨ht g hg, by rw [this]; exact ht g hg⟩⟩

end QiteAlg
end QF
