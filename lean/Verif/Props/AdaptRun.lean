import Verif.Props.Adapt
import Verif.Props.UccGradient3

/-!
C85: appending an operator with amplitude zero, and whole runs of ADAPT-VQE.
-/
namespace QF

open SQOperator (DescSort jwTransform)
open QubitOperator (SortOracle)

/-- the operators that the ansatz makes from a pool element -/
def UccAlg.parts (A : UccAlg) (e : SQOperator) : List SQOperator := if A.saSD then UccAlg.saSplit e else [e]

/-- the pool can be transformed: no repeated index in a product, at most 39 ladder operators -/
def UccAlg.PoolSound (A : UccAlg) : Prop :=
  ∀ e ∈ A.pool, ∀ s ∈ A.parts e.2, s.Distinct ∧ ∀ x ∈ s, x.2.1.length + x.2.2.length ≤ 39

theorem foldlM_neutral {α β : Type} {f : α → β → Except Exc α} (l z : List β) (a : α) (h : ∀ a, ∀ b ∈ z, f a b = .ok a) :
    (l ++ z).foldlM f a = l.foldlM f a := by
  have hz : ∀ a, z.foldlM f a = .ok a := by
    induction z with
    | nil => intro a; rfl
    | cons b z ih =>
      intro a
      rw [List.foldlM_cons, h a b (by simp), except_ok_bind]
      exact ih (fun a b hb => h a b (by simp [hb])) a
  rw [List.foldlM_append]
  cases l.foldlM f a with
  | error e => rfl
  | ok r => exact hz r

theorem groupStep_amp_zero (o : DescSort) (so : SortOracle) (combine qe : Bool) (s : SQOperator) (hd : s.Distinct)
    (hl : ∀ x ∈ s, x.2.1.length + x.2.2.length ≤ 39) (parent : QubitOperator) : SQOpPool.groupStep o so combine qe parent (0, s) = .ok parent := by
  obtain ⟨Q, R, B, _, _, _, p, hs⟩ := groupStep_ok o so combine qe (0, s) hd hl
  have hB : B = [] := by
    have : ((Q.multCoeffs 0).filter fun t => decide (‖t.1‖ > 1e-12)) = [] := by
      rw [List.filter_eq_nil_iff]
      intro t ht
      obtain ⟨u, _, rfl⟩ := List.mem_map.1 ht
      norm_num
    rw [this] at p
    exact p.eq_nil
  rw [hs parent, hB, List.append_nil]

theorem tempElems_ok {A : UccAlg} {t : ℝ} {m : ℕ} (hm : m < A.pool.length) : ∃ e ∈ A.pool, A.tempElems (t, m) = .ok ((A.parts e.2).map fun s => ((t : ℂ), s)) := by
  refine ⟨A.pool[m], List.getElem_mem hm, ?_⟩
  unfold UccAlg.tempElems UccAlg.poolAt UccAlg.parts
  simp only [List.getElem?_eq_getElem hm, except_ok_bind]
  split <;> rfl

theorem tempPool_zeros {A : UccAlg} (ms : List ℕ) (hm : ∀ m ∈ ms, m < A.pool.length) (acc : List (ℂ × SQOperator)) :
    ∃ zs : List (ℂ × SQOperator), (List.zip (ms.map fun _ => (0 : ℝ)) ms).foldlM (fun l p => (do
        let e ← A.tempElems p
        pure (l ++ e) : Except Exc (List (ℂ × SQOperator)))) acc = .ok (acc ++ zs) ∧ ∀ z ∈ zs, z.1 = 0 ∧ ∃ e ∈ A.pool, z.2 ∈ A.parts e.2 := by
  induction ms generalizing acc with
  | nil => exact ⟨[], by simp [pure, Except.pure], by simp⟩
  | cons m ms ih =>
    obtain ⟨e, he, h1⟩ := tempElems_ok (A := A) (t := 0) (hm m (by simp))
    obtain ⟨zs, h2, h3⟩ := ih (fun m h => hm m (by simp [h])) (acc ++ (A.parts e.2).map fun s => (((0 : ℝ) : ℂ), s))
    refine ⟨((A.parts e.2).map fun s => (((0 : ℝ) : ℂ), s)) ++ zs, ?_, ?_⟩
    · rw [List.map_cons, List.zip_cons_cons, List.foldlM_cons, h1]
      simp only [except_ok_bind, pure, Except.pure] at h2 ⊢
      rw [h2, List.append_assoc]
    · intro z hz
      rcases List.mem_append.1 hz with hz | hz
      · obtain ⟨s, hs, rfl⟩ := List.mem_map.1 hz
        exact ⟨by simp, e, he, hs⟩
      · exact h3 z hz

namespace Adapt

/-- C85: appending operators with amplitude zero does not change the ansatz circuit at all (standard circuits, any pool, any Trotter number). -/
theorem C85_neutral (o : DescSort) (so : SortOracle) (A : UccAlg) (hp : A.PoolSound) (hc : A.compact = false) (ts : List ℝ) (hl : ts.length = A.tops.length)
    (ms : List ℕ) (hm : ∀ m ∈ ms, m < A.pool.length) (ts' : List ℝ) :
    ({ A with tops := A.tops ++ ms, tamps := ts' } : UccAlg).ansatzCircuit o so (some (ts ++ ms.map fun _ => 0)) = A.ansatzCircuit o so (some ts) := by
  unfold UccAlg.ansatzCircuit UccAlg.ansatzWith
  rw [Option.getD_some, Option.getD_some]
  have hT : ∃ zs : List (ℂ × SQOperator), (∀ z ∈ zs, z.1 = 0 ∧ ∃ e ∈ A.pool, z.2 ∈ A.parts e.2) ∧
      ({ A with tops := A.tops ++ ms, tamps := ts' } : UccAlg).tempPool (ts ++ ms.map fun _ => 0) = (A.tempPool ts).map fun l => l ++ zs := by
    obtain ⟨zs, _, h3⟩ := tempPool_zeros (A := A) ms hm []
    unfold UccAlg.tempPool
    rw [List.zip_append hl, List.foldlM_append]
    cases h : (List.zip ts A.tops).foldlM (fun l p => (do
        let e ← A.tempElems p
        pure (l ++ e) : Except Exc (List (ℂ × SQOperator)))) [] with
    | error e =>
      refine ⟨[], by simp, ?_⟩
      erw [h]; rfl
    | ok r =>
      obtain ⟨zs, h2, h3⟩ := tempPool_zeros (A := A) ms hm r
      refine ⟨zs, h3, ?_⟩
      erw [h]
      simp only [except_ok_bind]
      exact h2
  obtain ⟨zs, hz, hT⟩ := hT
  rw [hT]
  cases hA : A.tempPool ts with
  | error e => rfl
  | ok l =>
    simp only [Except.map, except_ok_bind, hc, Bool.false_eq_true, if_false]
    have : SQOpPool.getQubitOperator o so { terms := l ++ zs } "commuting_grp_lex" true A.qubitExc =
        SQOpPool.getQubitOperator o so { terms := l } "commuting_grp_lex" true A.qubitExc := by
      unfold SQOpPool.getQubitOperator
      rw [if_neg (by decide), if_pos rfl, if_neg (by decide), if_pos rfl]
      refine foldlM_neutral l zs [] fun a z hzm => ?_
      obtain ⟨h0, e, he, hs⟩ := hz z hzm
      obtain ⟨h1, h2⟩ := hp e he z.2 hs
      have := groupStep_amp_zero o so true A.qubitExc z.2 h1 h2 a
      rw [← h0] at this
      exact this
    rw [this]

/-- C85: so the energy at the start of every optimisation is the energy at the end of the one before. -/
theorem C85_neutral_energy (o : DescSort) (so : SortOracle) (par : Option Schedule) (A : UccAlg) (hp : A.PoolSound) (hc : A.compact = false)
    (hl : A.tamps.length = A.tops.length) (ms : List ℕ) (hm : ∀ m ∈ ms, m < A.pool.length) :
    ({ A with tops := A.tops ++ ms, tamps := A.tamps ++ ms.map fun _ => 0 } : UccAlg).energyFeval o so par (A.tamps ++ ms.map fun _ => 0) =
      A.energyFeval o so par A.tamps := by
  unfold UccAlg.energyFeval UccAlg.buildUvqc
  rw [C85_neutral o so A hp hc A.tamps hl ms hm]
  rfl

/-- what is asked of the optimizer: it returns parameters of the right number with their energy, which is not above the energy at the start -/
def Contract (o : DescSort) (so : SortOracle) (par : Option Schedule) (S : Solver) : Prop :=
  ∀ B x e, S B = .ok (x, e) → x.length = B.tamps.length ∧ B.energyFeval o so par x = .ok e ∧ ∀ e0, B.energyFeval o so par B.tamps = .ok e0 → e ≤ e0

/-- the optimizer that stays at the start satisfies the contract -/
theorem contract_exists (o : DescSort) (so : SortOracle) (par : Option Schedule) : ∃ S, Contract o so par S ∧
    ∀ B e, B.energyFeval o so par B.tamps = .ok e → ∃ r, S B = .ok r := by
  refine ⟨fun B => (B.energyFeval o so par B.tamps).map fun e => (B.tamps, e), ?_, ?_⟩
  · intro B x e h
    simp only at h
    cases h1 : B.energyFeval o so par B.tamps with
    | error _ => rw [h1] at h; cases h
    | ok v =>
      rw [h1] at h
      cases h
      exact ⟨rfl, h1, fun e0 h0 => by cases h0; exact le_rfl⟩
  · intro B e h
    refine ⟨(B.tamps, e), ?_⟩
    simp only
    rw [h]; rfl

/-- the states between iterations: the algorithm object with other operators, all from the pool, one amplitude for each -/
structure Grown (A B : UccAlg) : Prop where
  same : B = { A with tops := B.tops, tamps := B.tamps }
  len : B.tamps.length = B.tops.length
  mem : ∀ m ∈ B.tops, m < A.pool.length

theorem newOps_mem {O : AdaptOpts} {gs : List ℝ} {s : Scan} (hs : ScanOf gs s) {ms : List ℕ} (h : newOps O gs s = .ok ms) : ∀ m ∈ ms, m < gs.length := by
  have hF : ∀ {gs' : List ℝ} {m g}, FirstMax gs' m g → m < gs'.length := fun h => (List.getElem?_eq_some_iff.1 h.1).1
  unfold newOps at h
  split at h
  · cases h
    have hnn : ∀ p ∈ gradsSq gs, 0 ≤ p.1 := by
      intro p hp
      obtain ⟨g, _, h⟩ := gradsSq_mem hp
      rw [h]; exact mul_self_nonneg g
    obtain ⟨D, R, e1, e2, _⟩ := cum_split O.thresh (gradsSq gs) hnn 0 [] (mul_self_nonneg _)
    rw [e2, List.append_nil]
    intro m hm
    obtain ⟨p, hp, rfl⟩ := List.mem_map.1 (List.mem_reverse.1 hm)
    obtain ⟨g, h1, _⟩ := gradsSq_mem (gs := gs) (p := p) (by rw [e1]; simp [hp])
    exact (List.getElem?_eq_some_iff.1 h1).1
  · rcases hs with ⟨e, _⟩ | ⟨i, e1, e2, e3⟩
    · rw [e] at h; cases h
    · rw [e1] at h
      simp only at h
      split at h
      · rcases e3 with ⟨e3, _⟩ | ⟨g2, m2, e3, e4⟩
        · rw [e3] at h; cases h
        · rw [e3] at h
          simp only at h
          have hm2 : m2 < gs.length := lt_of_lt_of_le (hF e4) (by rw [List.length_take]; omega)
          split at h
          all_goals
            cases h
            intro m hm
            simp at hm
          · rcases hm with rfl | rfl
            · exact hF e2
            · exact hm2
          · subst hm; exact hF e2
      · cases h
        intro m hm
        simp at hm; subst hm; exact hF e2

theorem mapM_length {α β : Type} {f : α → Except Exc β} {l : List α} {r : List β} (h : l.mapM f = .ok r) : r.length = l.length := by
  induction l generalizing r with
  | nil => simp [pure, Except.pure] at h; simp [h]
  | cons a l ih =>
    rw [List.mapM_cons] at h
    cases h1 : f a with
    | error e => rw [h1] at h; cases h
    | ok b =>
      cases h2 : l.mapM f with
      | error e => rw [h1, h2] at h; cases h
      | ok r' =>
        rw [h1, h2] at h
        cases h
        simp [ih h2]

theorem grad3_length {o : DescSort} {so : SortOracle} {A : UccAlg} {gs : List ℝ} (h : A.measureGradient3 o so = .ok gs) : gs.length = A.pool.length := by
  unfold UccAlg.measureGradient3 at h
  cases h1 : A.buildUvqc o so with
  | error e => rw [h1] at h; cases h
  | ok U =>
    rw [h1, except_ok_bind] at h
    cases h2 : A.initialComputer.applyCircuit U with
    | error e => rw [h2] at h; cases h
    | ok psi =>
      rw [h2, except_ok_bind] at h
      cases h3 : psi.applyOperator A.ham with
      | error e => rw [h3] at h; cases h
      | ok sig =>
        rw [h3, except_ok_bind] at h
        exact mapM_length h

/-- what a run has achieved when it stops -/
structure Outcome (o : DescSort) (so : SortOracle) (par : Option Schedule) (O : AdaptOpts) (A : UccAlg) (e0 : ℝ) (k : ℕ) (st st' : AdaptState) (es : List ℝ) : Prop where
  energies : st'.energies = st.energies ++ es
  chain : (e0 :: es).IsChain (fun a b => b ≤ a)
  grown : Grown A st'.ucc
  value : st'.ucc.energyFeval o so par st'.ucc.tamps = .ok (es.getLastD e0)
  stop : (st'.converged = true ∧ es.length ≤ k ∧ st'.gradNorms.length = st.gradNorms.length + es.length + 1 ∧
      ∃ gs, st'.ucc.measureGradient3 o so = .ok gs ∧ gradNorm gs < |O.thresh| ∧ st'.gradNorms.getLast? = some (gradNorm gs)) ∨
    (st'.converged = false ∧ es.length = k ∧ st'.gradNorms.length = st.gradNorms.length + es.length)
  final : st'.finalEnergy = st'.energies.getLast? ∧ st'.energies ≠ []

theorem update_inv {o : DescSort} {so : SortOracle} {O : AdaptOpts} {st st1 : AdaptState} (h : updateAnsatz o so O st = .ok st1) :
    ∃ gs, st.ucc.measureGradient3 o so = .ok gs ∧
      ((gradNorm gs < |O.thresh| ∧ ∃ e, st.energies.getLast? = some e ∧
        st1 = { st with gradNorms := st.gradNorms ++ [gradNorm gs], converged := true, finalEnergy := some e }) ∨
      (|O.thresh| ≤ gradNorm gs ∧ ∃ ms : List ℕ, (∀ m ∈ ms, m < st.ucc.pool.length) ∧ st1 = { st with
        gradNorms := st.gradNorms ++ [gradNorm gs]
        converged := false
        ucc := { st.ucc with tops := st.ucc.tops ++ ms, tamps := st.ucc.tamps ++ ms.map fun _ => 0 }
        nParams := st.nParams ++ [(st.ucc.tops ++ ms).length] })) := by
  cases hg : st.ucc.measureGradient3 o so with
  | error e =>
    unfold updateAnsatz at h
    rw [hg] at h; cases h
  | ok gs =>
    refine ⟨gs, rfl, ?_⟩
    by_cases hn : gradNorm gs < |O.thresh|
    · left
      refine ⟨hn, ?_⟩
      rw [C85_converged o so O st gs hg hn] at h
      cases he : st.energies.getLast? with
      | none => rw [he] at h; cases h
      | some e => rw [he] at h; cases h; exact ⟨e, rfl, rfl⟩
    · right
      refine ⟨not_lt.1 hn, ?_⟩
      obtain ⟨s, h1, h2⟩ := scan_ok gs
      rw [update_eq hg h1 (not_lt.1 hn)] at h
      cases hm : newOps O gs s with
      | error e => rw [hm] at h; cases h
      | ok ms =>
        rw [hm] at h; cases h
        exact ⟨ms, fun m hmm => by rw [← grad3_length hg]; exact newOps_mem h2 hm m hmm, rfl⟩

theorem solve_inv {o : DescSort} {so : SortOracle} {par : Option Schedule} {S : Solver} {st st1 : AdaptState} (h : solve o so par S st = .ok st1) :
    ∃ x e, S st.ucc = .ok (x, e) ∧ st1 = { st with ucc := { st.ucc with tamps := x }, energies := st.energies ++ [e] } := by
  unfold solve at h
  cases h1 : st.ucc.energyFeval o so par st.ucc.tamps with
  | error e => rw [h1] at h; cases h
  | ok v =>
    cases h2 : S st.ucc with
    | error e => rw [h1, h2] at h; cases h
    | ok r => rw [h1, h2] at h; cases h; exact ⟨r.1, r.2, rfl, rfl⟩

theorem energyFeval_tamps (o : DescSort) (so : SortOracle) (par : Option Schedule) (B : UccAlg) (x ts : List ℝ) :
    ({ B with tamps := ts } : UccAlg).energyFeval o so par x = B.energyFeval o so par x := rfl

/-- one iteration that does not stop -/
theorem iterate {o : DescSort} {so : SortOracle} {par : Option Schedule} {S : Solver} (hS : Contract o so par S) {A : UccAlg} (hp : A.PoolSound)
    (hc : A.compact = false) {B : UccAlg} (hG : Grown A B) {e0 : ℝ} (he : B.energyFeval o so par B.tamps = .ok e0) {ms : List ℕ} (hm : ∀ m ∈ ms, m < B.pool.length)
    {x : List ℝ} {e : ℝ} (hx : S { B with tops := B.tops ++ ms, tamps := B.tamps ++ ms.map fun _ => 0 } = .ok (x, e)) :
    Grown A { B with tops := B.tops ++ ms, tamps := x } ∧ ({ B with tops := B.tops ++ ms, tamps := x } : UccAlg).energyFeval o so par x = .ok e ∧ e ≤ e0 := by
  obtain ⟨h1, h2, h3⟩ := hS _ _ _ hx
  have hpool : B.pool = A.pool := by rw [hG.same]
  have hpB : B.PoolSound := by
    have e1 := hG.same
    intro e he s hs
    rw [hpool] at he
    refine hp e he s ?_
    rw [e1] at hs; exact hs
  have hcB : B.compact = false := by rw [hG.same]; exact hc
  refine ⟨⟨?_, ?_, ?_⟩, ?_, ?_⟩
  · conv_lhs => rw [hG.same]
  · simp only [h1, List.length_append, List.length_map, hG.len]
  · intro m hmm
    rcases List.mem_append.1 hmm with hmm | hmm
    · exact hG.mem m hmm
    · rw [← hpool]; exact hm m hmm
  · exact h2
  · refine h3 e0 ?_
    rw [C85_neutral_energy o so par B hpB hcB hG.len ms hm]; exact he

theorem loop_outcome (o : DescSort) (so : SortOracle) (par : Option Schedule) (S : Solver) (hS : Contract o so par S) (O : AdaptOpts) (A : UccAlg) (hp : A.PoolSound)
    (hc : A.compact = false) (k : ℕ) (st st' : AdaptState) (hG : Grown A st.ucc) (e0 : ℝ) (he : st.ucc.energyFeval o so par st.ucc.tamps = .ok e0)
    (h : loop o so par S O k st = .ok st') : ∃ es, Outcome o so par O A e0 (k + 1) st st' es := by
  have hconv : ∀ k gs e, st.ucc.measureGradient3 o so = .ok gs → gradNorm gs < |O.thresh| → st.energies.getLast? = some e →
      ∃ es, Outcome o so par O A e0 (k + 1) st { st with gradNorms := st.gradNorms ++ [gradNorm gs], converged := true, finalEnergy := some e } es := by
    intro k gs e hg hn hl
    refine ⟨[], by simp, by simp, hG, by simpa using he, .inl ⟨rfl, by simp, by simp, gs, hg, hn, by simp⟩, hl.symm, ?_⟩
    intro h0
    simp only at h0
    rw [h0] at hl; simp at hl
  induction k generalizing st e0 with
  | zero =>
    unfold loop at h
    cases h1 : updateAnsatz o so O st with
    | error e => rw [h1] at h; cases h
    | ok st1 =>
      rw [h1, except_ok_bind] at h
      obtain ⟨gs, hg, ⟨hn, e, hl, rfl⟩ | ⟨hn, ms, hm, rfl⟩⟩ := update_inv h1
      · rw [if_pos rfl] at h
        cases h
        exact hconv _ gs e hg hn hl
      · rw [if_neg (by simp)] at h
        cases h2 : solve o so par S { st with
          gradNorms := st.gradNorms ++ [gradNorm gs]
          converged := false
          ucc := { st.ucc with tops := st.ucc.tops ++ ms, tamps := st.ucc.tamps ++ ms.map fun _ => 0 }
          nParams := st.nParams ++ [(st.ucc.tops ++ ms).length] } with
        | error e => rw [h2] at h; cases h
        | ok st2 =>
          rw [h2, except_ok_bind] at h
          obtain ⟨x, e, hx, rfl⟩ := solve_inv h2
          obtain ⟨g1, g2, g3⟩ := iterate hS hp hc hG he hm hx
          have hlast : (st.energies ++ [e]).getLast? = some e := by simp
          simp only [hlast, Option.elim, pure, Except.pure, except_ok_bind] at h
          cases h
          exact ⟨[e], rfl, by simpa using g3, g1, by simpa using g2, .inr ⟨rfl, by simp, by simp⟩, by simp, by simp⟩
  | succ k ih =>
    unfold loop at h
    cases h1 : updateAnsatz o so O st with
    | error e => rw [h1] at h; cases h
    | ok st1 =>
      rw [h1, except_ok_bind] at h
      obtain ⟨gs, hg, ⟨hn, e, hl, rfl⟩ | ⟨hn, ms, hm, rfl⟩⟩ := update_inv h1
      · rw [if_pos rfl] at h
        cases h
        exact hconv _ gs e hg hn hl
      · rw [if_neg (by simp)] at h
        cases h2 : solve o so par S { st with
          gradNorms := st.gradNorms ++ [gradNorm gs]
          converged := false
          ucc := { st.ucc with tops := st.ucc.tops ++ ms, tamps := st.ucc.tamps ++ ms.map fun _ => 0 }
          nParams := st.nParams ++ [(st.ucc.tops ++ ms).length] } with
        | error e => rw [h2] at h; cases h
        | ok st2 =>
          rw [h2, except_ok_bind] at h
          obtain ⟨x, e, hx, rfl⟩ := solve_inv h2
          obtain ⟨g1, g2, g3⟩ := iterate hS hp hc hG he hm hx
          obtain ⟨es, a1, a2, a3, a4, a5, a6⟩ := ih _ g1 e g2 h (by
            intro k gs' e' hg' hn' hl'
            refine ⟨[], by simp, by simp, g1, by simpa using g2, .inl ⟨rfl, by simp, by simp, gs', hg', hn', by simp⟩, hl'.symm, ?_⟩
            simp)
          refine ⟨e :: es, by rw [a1]; simp, List.isChain_cons_cons.2 ⟨g3, a2⟩, a3, ?_, ?_, a6⟩
          · rw [a4]; cases es <;> rfl
          · rcases a5 with ⟨b1, b2, b3, b4⟩ | ⟨b1, b2, b3⟩
            · refine .inl ⟨b1, by simp; omega, ?_, b4⟩
              rw [b3]; simp; omega
            · refine .inr ⟨b1, by simp; omega, ?_⟩
              rw [b3]; simp; omega

/-- C85: whole runs.  If `run` returns, then: the energies never increase and start at or below the energy of the reference; the result is the last of
them and is the energy of the final operators and amplitudes; there is one amplitude for every operator and every operator is from the pool; at least one iteration and at most
`adapt_maxiter` (at least one) were made; and either the norm of the final gradients is below the threshold or all iterations were used. -/
theorem C85_run (o : DescSort) (so : SortOracle) (par : Option Schedule) (S : Solver) (hS : Contract o so par S) (O : AdaptOpts) (A : UccAlg) (hp : A.PoolSound)
    (hc : A.compact = false) (st : AdaptState) (E : ℝ) (h : run o so par S O A = .ok (st, E)) :
    ∃ e0, ({ A with tops := [], tamps := [] } : UccAlg).energyFeval o so par [] = .ok e0 ∧
      (e0 :: st.energies).IsChain (fun a b => b ≤ a) ∧ st.energies.getLast? = some E ∧ E ≤ e0 ∧
      st.ucc.energyFeval o so par st.ucc.tamps = .ok E ∧
      st.ucc.tamps.length = st.ucc.tops.length ∧ (∀ m ∈ st.ucc.tops, m < A.pool.length) ∧
      1 ≤ st.energies.length ∧ st.energies.length ≤ max 1 O.maxiter.toNat ∧
      ((∃ gs, st.ucc.measureGradient3 o so = .ok gs ∧ gradNorm gs < |O.thresh|) ∨ st.energies.length = max 1 O.maxiter.toNat) := by
  unfold run at h
  simp only at h
  cases h1 : ({ A with tops := [], tamps := [] } : UccAlg).energyFeval o so par [] with
  | error e => rw [h1] at h; cases h
  | ok e0 =>
    rw [h1, except_ok_bind] at h
    cases h2 : loop o so par S O (O.maxiter.toNat - 1) { ucc := { A with tops := [], tamps := [] }, energies := [], gradNorms := [], converged := false, finalEnergy := none, nParams := [] } with
    | error e => rw [h2] at h; cases h
    | ok st1 =>
      rw [h2, except_ok_bind] at h
      obtain ⟨es, a1, a2, a3, a4, a5, a6, a7⟩ := loop_outcome o so par S hS O A hp hc _ _ _ (by exact ⟨rfl, rfl, by simp⟩) e0 (by exact h1) h2
      rw [List.nil_append] at a1
      rw [a6] at h
      cases h3 : st1.energies.getLast? with
      | none => exact absurd (List.getLast?_eq_none_iff.1 h3) a7
      | some e =>
        rw [h3] at h
        cases h
        have hE : es.getLastD e0 = E := by rw [← a1, List.getLastD_eq_getLast?, h3]; rfl
        have hk : O.maxiter.toNat - 1 + 1 = max 1 O.maxiter.toNat := by omega
        have hl : 1 ≤ es.length := by
          rw [← a1]; exact List.length_pos_iff.2 a7
        refine ⟨e0, rfl, by rw [a1]; exact a2, h3, ?_, by rw [a4, hE], a3.len, a3.mem, by rw [a1]; exact hl, ?_, ?_⟩
        · have hpw : (e0 :: es).Pairwise (fun a b => b ≤ a) := by
            have : IsTrans ℝ (fun a b => b ≤ a) := ⟨fun a b c h1 h2 => h2.trans h1⟩
            exact List.isChain_iff_pairwise.1 a2
          refine (List.pairwise_cons.1 hpw).1 E ?_
          rw [← a1]; exact List.mem_of_getLast? h3
        · rw [a1]
          rcases a5 with ⟨_, b, _⟩ | ⟨_, b, _⟩ <;> omega
        · rcases a5 with ⟨_, _, _, gs, b1, b2, _⟩ | ⟨_, b, _⟩
          · exact .inl ⟨gs, b1, b2⟩
          · right; rw [a1]; omega

end Adapt
end QF
