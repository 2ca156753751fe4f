import Verif.Props.LanczosFile
import Verif.Props.QiteExample

/-!
C119: the quantum Lanczos energies along the imaginary-time evolution.
-/
namespace QF
namespace QiteAlg

/-- C119: with a positive gap the `i`-th kept vector is that of step `i * gap` -/
theorem C119_times {A : QiteAlg} (hl : A.doLanczos = true) (hg : 0 < A.lanczosGap) (K : ℕ) :
    (A.lanczosTimes K).map (Nat.cast : ℕ → ℤ) = (List.range (K / A.lanczosGap.toNat + 1)).map fun i : ℕ => (i : ℤ) * A.lanczosGap := by
  obtain ⟨g, hgg⟩ : ∃ g : ℕ, A.lanczosGap = g := ⟨A.lanczosGap.toNat, by omega⟩
  have hg0 : 0 < g := by omega
  induction K with
  | zero => simp [lanczosTimes, hl]
  | succ K ih =>
    rw [times_succ K hl, List.map_append, ih, hgg]
    simp only [Int.toNat_natCast]
    by_cases h : ((K + 1 : ℕ) : ℤ) % (g : ℤ) = 0
    · rw [if_pos h]
      have hd : g ∣ K + 1 := Int.natCast_dvd_natCast.1 (Int.dvd_of_emod_eq_zero h)
      have : (K + 1) / g = K / g + 1 := by rw [Nat.succ_div, if_pos hd]
      rw [this, List.range_succ (n := K / g + 1), List.map_append]
      congr 1
      simp only [List.map_cons, List.map_nil, List.cons.injEq, and_true]
      rw [← this]
      exact_mod_cast (Nat.div_mul_cancel hd).symm
    · rw [if_neg h]
      have hd : ¬ g ∣ K + 1 := fun hd => h (Int.emod_eq_zero_of_dvd (Int.natCast_dvd_natCast.2 hd))
      rw [Nat.succ_div, if_neg hd]; simp

theorem span_extend {k k' : ℕ} (h : k ≤ k') (φ : ℕ → St) (c : ℕ → ℂ) : spanState k φ c = spanState k' φ fun i => if i < k then c i else 0 := by
  unfold spanState
  rw [← Finset.sum_subset (Finset.range_subset_range.2 h)]
  · exact Finset.sum_congr rfl fun i hi => by simp only [if_pos (Finset.mem_range.1 hi)]
  · intro i _ hi
    have : ¬ i < k := by simpa using hi
    simp only [if_neg this, zero_smul]

theorem lanczos_mono {n k k' : ℕ} {H : Op} {φ : ℕ → St} {eig : EigOracle} {M M' : NMat × NMat} {E E' : ℂ} (h : LanczosOk n k H φ eig M E)
    (h' : LanczosOk n k' H φ eig M' E') (hk : k ≤ k') (hfull : ∀ z ∈ (eig k' M'.1).1, 1e-15 < z.re) : E'.re ≤ E.re := by
  obtain ⟨c, c1, c2⟩ := h.ritz
  rw [span_extend hk] at c1 c2
  have := h'.optimal hfull _ c1
  rw [energy, c2] at this
  exact this

/-- C119: after the run of C84 every line of `lanczos_summary.dat` is there, and line `m` belongs to the lowest Ritz energy in the span of the first `m + 1` kept states; the
energies do not rise from line to line, unless a direction was dropped, and the last one is the energy of the run. -/
theorem C119_lines {A : QiteAlg} (hA : A.Ready) {σ : List Circuit} {K : ℕ} {st : QiteState} {ψ : ℕ → St} {x : ℕ → List ℝ} {ph : ℕ → ℂ} (h : A.Trajectory σ K st ψ x ph)
    {eig : EigOracle} (hE : DescEig eig) (F : NumFmt) (hF : F.Plain) (hd : ∀ s x, F.real s x ≠ [] ∧ '#' ∉ F.real s x) (cond : ℕ → NMat → Text)
    (hc : ∀ k S, '\n' ∉ cond k S) : ∃ (t : Text) (M : ℕ → NMat × NMat) (E : ℕ → ℂ), lanczosFile F cond eig A st = (t, none) ∧
      dataLines t = (List.range (A.lanczosTimes K).length).map (fun m : ℕ => lanczosRow F ((m : ℝ) * A.lanczosGap * A.db) (cond (m + 1) (M m).1) (E m).re) ∧
      (∀ m < (A.lanczosTimes K).length, LanczosOk A.nqb (m + 1) A.ham.op (A.keptState K ψ) eig (M m) (E m)) ∧
      (∀ m m', m ≤ m' → m' < (A.lanczosTimes K).length → (∀ z ∈ (eig (m' + 1) (M m').1).1, 1e-15 < z.re) → (E m').re ≤ (E m).re) ∧
      ∀ R, qlanczos eig st = .ok R → R = (M ((A.lanczosTimes K).length - 1), E ((A.lanczosTimes K).length - 1)) := by
  obtain ⟨d1, d2, d3⟩ := lanczos_data hA h
  have key : ∀ m < st.lvecs.length, ∃ M E, qlanczos eig (st.first (m + 1)) = .ok (M, E) ∧ LanczosOk A.nqb (m + 1) A.ham.op (A.keptState K ψ) eig M E := by
    intro m hm
    have hl : (st.first (m + 1)).lvecs.length = m + 1 := by show (st.lvecs.take (m + 1)).length = _; rw [List.length_take]; omega
    have := qlanczos_ok hE (hermitian_of_real hA.ham) (st := st.first (m + 1)) (φ := A.keptState K ψ) (by
        rw [hl]
        refine ⟨fun i hi => ?_, fun i hi => ?_, fun i hi j hj => d2.herm i (by omega) j (by omega)⟩
        · obtain ⟨v, v1, v2⟩ := d2.om i (by omega)
          exact ⟨v, by show (st.lvecs.take (m + 1))[i]? = _; rw [List.getElem?_take_of_lt hi]; exact v1, v2⟩
        · obtain ⟨v, v1, v2⟩ := d2.hom i (by omega)
          exact ⟨v, by show (st.hlvecs.take (m + 1))[i]? = _; rw [List.getElem?_take_of_lt hi]; exact v1, v2⟩) (by rw [hl]; exact fun i hi => d3 i (by omega)) (by omega)
    rwa [hl] at this
  choose! M E hq hL using key
  obtain ⟨t, e, rows, f1, -, f3, f4, f5, f6, f7⟩ := C104_lanczos F hF hd cond hc eig A st
  have hlen : rows.length = st.lvecs.length := by
    by_contra hne
    obtain ⟨x, hx⟩ : ∃ x, e = some x := by
      rcases e with _ | x
      · exact absurd (f5.1 rfl) hne
      · exact ⟨x, rfl⟩
    have := f7 x hx
    rw [hq _ (by omega)] at this
    cases this
  refine ⟨t, M, E, by rw [f1, f5.2 hlen], ?_, fun m hm => hL m (by omega), fun m m' hmm hm' hfull => lanczos_mono (hL m (by omega)) (hL m' (by omega)) (by omega) hfull, ?_⟩
  · rw [f3, ← d1]
    apply List.ext_getElem? 
    intro m
    by_cases hm : m < rows.length
    · obtain ⟨M', E', a1, a2⟩ := f6 m hm
      rw [hq m (by omega)] at a1
      cases a1
      rw [a2, List.getElem?_map, List.getElem?_range (by omega)]; rfl
    · rw [List.getElem?_eq_none (by omega), List.getElem?_eq_none (by rw [List.length_map, List.length_range]; omega)]
  · intro R hR
    rw [← d1]
    by_cases h0 : st.lvecs.length = 0
    · exfalso
      have : st.lvecs = [] := List.length_eq_zero_iff.1 h0
      unfold qlanczos at hR
      rw [h0] at hR
      cases hR
    · have := hq (st.lvecs.length - 1) (by omega)
      have hs : st.lvecs.length - 1 + 1 = st.lvecs.length := by omega
      rw [lanczos_prefix (by omega), hs] at this
      have h2 : qlanczos eig st = .ok (M (st.lvecs.length - 1), E (st.lvecs.length - 1)) := this
      rw [hR] at h2
      cases h2; rfl

/-- the vectors kept by `st` are the first of those kept by `st'` -/
def KeepsOf (st st' : QiteState) : Prop := st.lvecs.length = st.hlvecs.length → st'.lvecs.length = st'.hlvecs.length ∧ ∃ l l', st'.lvecs = st.lvecs ++ l ∧ st'.hlvecs = st.hlvecs ++ l'

theorem keepsOf_loopStep {A : QiteAlg} {ls : LstsqOracle} {par : Option Schedule} {sig : QubitOpPool} {st st' : QiteState} {kb : ℕ} (h : A.loopStep ls par sig st kb = .ok st') :
    KeepsOf st st' := by
  intro hlen
  unfold loopStep at h
  obtain ⟨s1, e1, h⟩ := bindOk h
  have hs : s1.lvecs = st.lvecs ∧ s1.hlvecs = st.hlvecs := by
    unfold step at e1
    obtain ⟨_, -, e1⟩ := bindOk e1
    obtain ⟨_, -, e1⟩ := bindOk e1
    obtain ⟨_, -, e1⟩ := bindOk e1
    obtain ⟨_, -, e1⟩ := bindOk e1
    obtain ⟨_, -, e1⟩ := bindOk e1
    obtain ⟨_, -, e1⟩ := bindOk e1
    obtain ⟨_, -, e1⟩ := bindOk e1
    obtain ⟨_, -, e1⟩ := bindOk e1
    obtain ⟨_, -, e1⟩ := bindOk e1
    cases e1
    exact ⟨rfl, rfl⟩
  have same : s1 = st' → st'.lvecs.length = st'.hlvecs.length ∧ ∃ l l', st'.lvecs = st.lvecs ++ l ∧ st'.hlvecs = st.hlvecs ++ l' := by
    rintro rfl
    exact ⟨by rw [hs.1, hs.2, hlen], [], [], by rw [hs.1, List.append_nil], by rw [hs.2, List.append_nil]⟩
  by_cases hl : A.doLanczos = true
  · rw [if_pos hl] at h
    by_cases hg : A.lanczosGap = 0
    · rw [if_pos hg] at h; cases h
    · rw [if_neg hg] at h
      by_cases hm : (kb : ℤ) % A.lanczosGap = 0
      · rw [if_pos hm] at h
        unfold keep at h
        obtain ⟨p, -, h⟩ := bindOk h
        cases h
        refine ⟨?_, [_], [_], by rw [← hs.1], by rw [← hs.2]⟩
        simp only [List.length_append, List.length_singleton, hs.1, hs.2, hlen]
      · rw [if_neg hm] at h
        cases h; exact same rfl
  · rw [if_neg hl] at h
    cases h; exact same rfl

theorem KeepsOf.trans {a b c : QiteState} (h : KeepsOf a b) (h' : KeepsOf b c) : KeepsOf a c := by
  intro hl
  obtain ⟨x1, l, l', x2, x3⟩ := h hl
  obtain ⟨y1, m, m', y2, y3⟩ := h' x1
  exact ⟨y1, l ++ m, l' ++ m', by rw [y2, x2, List.append_assoc], by rw [y3, x3, List.append_assoc]⟩

theorem keepsOf_loop {A : QiteAlg} {ls : LstsqOracle} {par : Option Schedule} {sig : QubitOpPool} (l : List ℕ) : ∀ {st st' : QiteState},
    l.foldlM (A.loopStep ls par sig) st = .ok st' → KeepsOf st st' := by
  induction l with
  | nil => intro st st' h hl; cases h; exact ⟨hl, [], [], by simp, by simp⟩
  | cons a l ih =>
    intro st st' h
    rw [List.foldlM_cons] at h
    obtain ⟨s1, e1, h⟩ := bindOk h
    exact (keepsOf_loopStep e1).trans (ih h)

theorem evolve_eq {A : QiteAlg} {ls : LstsqOracle} {par : Option Schedule} {sig : QubitOpPool} {E0 : ℝ} {nb : ℤ} : A.evolve ls par sig E0 nb = (do
    let q ← (Computer.init A.nqb).applyCircuit (Circuit.addCircuit [] A.uprep)
    let s0 ← (if A.doLanczos = true then A.keep { uqite := Circuit.addCircuit [] A.uprep, qc := q, ekb := [E0], phase := 1, nParams := 0, nCnot := A.uprep.getNumCnots, nMeas := 0, lvecs := [], hlvecs := [] } else
      pure { uqite := Circuit.addCircuit [] A.uprep, qc := q, ekb := [E0], phase := 1, nParams := 0, nCnot := A.uprep.getNumCnots, nMeas := 0, lvecs := [], hlvecs := [] })
    (List.range' 1 (nb - 1).toNat).foldlM (A.loopStep ls par sig) s0) := by
  unfold evolve
  dsimp only
  by_cases hl : A.doLanczos = true
  · simp only [if_pos hl]
  · simp only [if_neg hl]

/-- C119: what a shorter evolution keeps is what a longer one keeps first; its Lanczos energy is the energy of a line of the longer one. -/
theorem C119_longer {A : QiteAlg} {ls : LstsqOracle} {par : Option Schedule} {sig : QubitOpPool} {E0 : ℝ} {nb nb' : ℤ} {st st' : QiteState}
    (h : A.evolve ls par sig E0 nb = .ok st) (h' : A.evolve ls par sig E0 nb' = .ok st') (hnb : nb ≤ nb') (eig : EigOracle) :
    st.lvecs.length ≤ st'.lvecs.length ∧ st.lvecs = (st'.first st.lvecs.length).lvecs ∧ st.hlvecs = (st'.first st.lvecs.length).hlvecs ∧
      qlanczos eig st = qlanczos eig (st'.first st.lvecs.length) := by
  rw [evolve_eq] at h h'
  obtain ⟨q, e1, h⟩ := bindOk h
  obtain ⟨q', e1', h'⟩ := bindOk h'
  rw [e1] at e1'
  cases e1'
  obtain ⟨s0, e2, h⟩ := bindOk h
  obtain ⟨s0', e2', h'⟩ := bindOk h'
  rw [e2] at e2'
  cases e2'
  have h0 : s0.lvecs.length = s0.hlvecs.length := by
    by_cases hl : A.doLanczos = true
    · rw [if_pos hl] at e2
      unfold keep at e2
      obtain ⟨p, -, e2⟩ := bindOk e2
      cases e2; rfl
    · rw [if_neg hl] at e2
      cases e2; rfl
  have hlen : st.lvecs.length = st.hlvecs.length := (keepsOf_loop _ h h0).1
  obtain ⟨d, hd⟩ : ∃ d, (nb' - 1).toNat = (nb - 1).toNat + d := ⟨(nb' - 1).toNat - (nb - 1).toNat, by omega⟩
  rw [hd, ← List.range'_append_1, List.foldlM_append, h, except_ok_bind] at h'
  obtain ⟨-, l, l', k2, k3⟩ := keepsOf_loop _ h' hlen
  have a1 : st.lvecs = (st'.first st.lvecs.length).lvecs := by show _ = st'.lvecs.take _; rw [k2, List.take_left]
  have a2 : st.hlvecs = (st'.first st.lvecs.length).hlvecs := by show _ = st'.hlvecs.take _; rw [k3, hlen, List.take_left]
  refine ⟨by rw [k2, List.length_append]; omega, a1, a2, ?_⟩
  have : ∀ s s' : QiteState, s.lvecs = s'.lvecs → s.hlvecs = s'.hlvecs → qlanczos eig s = qlanczos eig s' := by
    intro s s' b1 b2
    unfold qlanczos
    rw [b1]
    congr 1
    have : lanczosStep eig s = lanczosStep eig s' := by
      funext x m
      unfold lanczosStep
      rw [b1, b2]
    rw [this]
  exact this _ _ a1 a2

theorem pyTrunc_mono {a b : ℝ} (h : a ≤ b) : pyTrunc a ≤ pyTrunc b := by
  unfold pyTrunc
  split_ifs with h1 h2 h2
  · exact Int.floor_le_floor h
  · linarith
  · exact (Int.ceil_le.2 (by push_cast; linarith)).trans (Int.floor_nonneg.2 h2)
  · exact Int.ceil_le_ceil h

/-- C119: a longer imaginary time does not raise the Lanczos energy, if no direction is dropped in the longer run. -/
theorem C119_run {A : QiteAlg} (hA : A.Ready) {ls : LstsqOracle} (hls : IsLstsq ls) {par : Option Schedule} (hp : A.GoodBuild par) (hdb : A.db ≠ 0)
    {σ : List Circuit} (hσ : ∀ c ∈ σ, c.PauliString A.nqb) (hd : A.StepDefined σ) (hl : A.doLanczos = true) (hg : A.lanczosGap ≠ 0)
    (N : SQOpPool.NextPerm) (o : SQOperator.DescSort) (so : QubitOperator.SortOracle) (fuel : ℕ) {eig : EigOracle} (hE : DescEig eig)
    (hpool : A.buildExpansionPool N o so fuel = .ok (poolOf σ)) (beta' : ℝ) (hb : A.beta / A.db ≤ beta' / A.db)
    {st st' : QiteState} {sig sig' : QubitOpPool} {Eq Eq' : ℝ} {M M' : NMat × NMat} {E E' : ℂ}
    (h : A.run N o so fuel ls eig par = .ok (st, sig, Eq, some (M, E)))
    (h' : ({ A with beta := beta' } : QiteAlg).run N o so fuel ls eig par = .ok (st', sig', Eq', some (M', E')))
    (hfull : ∀ z ∈ (eig st'.lvecs.length M'.1).1, 1e-15 < z.re) : E'.re ≤ E.re := by
  have hA' : ({ A with beta := beta' } : QiteAlg).Ready := ⟨hA.prep, hA.ham, hA.steps⟩
  obtain ⟨s, ψ, x, ph, N1, E1, e, T, L, -⟩ := C84_run hA hls hp hdb hσ hd hl hg N o so fuel hE hpool
  obtain ⟨s', ψ', x', ph', N2, E2, e', T', L', -⟩ := C84_run (A := { A with beta := beta' }) hA' hls hp hdb hσ hd hl hg N o so fuel hE hpool
  rw [h] at e
  rw [h'] at e'
  cases e
  cases e'
  -- the two evolutions
  have evol : ∀ {B : QiteAlg} {u : QiteState} {g : QubitOpPool} {y : ℝ} {z : Option ((NMat × NMat) × ℂ)}, B.db ≠ 0 → B.run N o so fuel ls eig par = .ok (u, g, y, z) →
      ∃ q v q', (Computer.init B.nqb).applyCircuit B.uprep = .ok q ∧ q.directOpExpVal par B.ham = .ok (v, q') ∧
        B.evolve ls par g v.re (pyTrunc (B.beta / B.db) + 1) = .ok u := by
    intro B u g y z hB hr
    unfold run nbeta at hr
    rw [if_neg hB, except_ok_bind] at hr
    obtain ⟨q, a1, hr⟩ := bindOk hr
    obtain ⟨⟨v, q'⟩, a2, hr⟩ := bindOk hr
    obtain ⟨g', a3, hr⟩ := bindOk hr
    obtain ⟨u', a4, hr⟩ := bindOk hr
    obtain ⟨_, -, hr⟩ := bindOk hr
    dsimp only at hr
    split_ifs at hr
    · obtain ⟨_, -, hr⟩ := bindOk hr
      cases hr
      exact ⟨q, v, q', a1, a2, a4⟩
    cases hr
    exact ⟨q, v, q', a1, a2, a4⟩
  obtain ⟨q, v, w, a1, a2, a3⟩ := evol hdb h
  obtain ⟨q', v', w', b1, b2, b3⟩ := evol (B := { A with beta := beta' }) hdb h'
  have a1' : (Computer.init A.nqb).applyCircuit A.uprep = .ok q' := b1
  rw [a1] at a1'
  cases a1'
  have a2' : q.directOpExpVal par A.ham = .ok (v', w') := b2
  rw [a2] at a2'
  cases a2'
  have b3' : A.evolve ls par (poolOf σ) v.re (pyTrunc (beta' / A.db) + 1) = .ok st' := b3
  obtain ⟨c1, c2, c3, c4⟩ := C119_longer a3 b3' (by have := pyTrunc_mono hb; omega) eig
  obtain ⟨d1, -, -⟩ := lanczos_data hA T
  obtain ⟨d1', f1, f2⟩ := lanczos_data hA' T'
  have hpos : 1 ≤ st.lvecs.length := by rw [d1]; simp [lanczosTimes, hl]
  have hlen : (st'.first st.lvecs.length).lvecs.length = st.lvecs.length := by rw [← c2]
  obtain ⟨M0, E0, g1, g2⟩ := qlanczos_ok hE (hermitian_of_real hA.ham) (st := st'.first st.lvecs.length) (φ := keptState { A with beta := beta' } (pyTrunc (beta' / A.db)).toNat ψ') (by
    rw [hlen]
    refine ⟨fun i hi => ?_, fun i hi => ?_, fun i hi j hj => f1.herm i (by omega) j (by omega)⟩
    · obtain ⟨v, v1, v2⟩ := f1.om i (by omega)
      exact ⟨v, by show (st'.lvecs.take _)[i]? = _; rw [List.getElem?_take_of_lt hi]; exact v1, v2⟩
    · obtain ⟨v, v1, v2⟩ := f1.hom i (by omega)
      exact ⟨v, by show (st'.hlvecs.take _)[i]? = _; rw [List.getElem?_take_of_lt hi]; exact v1, v2⟩) (by rw [hlen]; exact fun i hi => f2 i (by omega)) (by omega)
  have hq : qlanczos eig st = .ok (M, E) := by
    unfold run nbeta at h
    rw [if_neg hdb, except_ok_bind] at h
    obtain ⟨_, -, h⟩ := bindOk h
    obtain ⟨⟨_, _⟩, -, h⟩ := bindOk h
    obtain ⟨_, -, h⟩ := bindOk h
    obtain ⟨_, -, h⟩ := bindOk h
    obtain ⟨_, -, h⟩ := bindOk h
    dsimp only at h
    rw [if_pos hl] at h
    obtain ⟨r, hr, h⟩ := bindOk h
    cases h
    exact hr
  rw [c4, g1] at hq
  cases hq
  rw [hlen] at g2
  rw [d1'] at hfull c1
  exact lanczos_mono g2 L' c1 hfull

/-- the demonstration run twice as long -/
theorem C119_example (N : SQOpPool.NextPerm) (o : SQOperator.DescSort) (so : QubitOperator.SortOracle) (fuel : ℕ) :
    demo.doLanczos = true ∧ 0 < demo.lanczosGap ∧ demo.beta / demo.db ≤ 2 * demo.beta / demo.db ∧ ∃ ls eig r r', IsLstsq ls ∧ DescEig eig ∧
      demo.run N o so fuel ls eig none = .ok r ∧ ({ demo with beta := 2 * demo.beta } : QiteAlg).run N o so fuel ls eig none = .ok r' := by
  obtain ⟨ls, hls⟩ := exists_lstsq
  obtain ⟨eig, hE⟩ := exists_descEig
  obtain ⟨h1, h2, h3, h4, -, -, -, σ, h5, h6, h7, -⟩ := C82_example N o so fuel
  obtain ⟨st, ψ, x, ph, M, E, e, -⟩ := C84_run h1 hls h2 h3 h6 h7 rfl h4 N o so fuel hE h5
  obtain ⟨st', ψ', x', ph', M', E', e', -⟩ := C84_run (A := { demo with beta := 2 * demo.beta }) ⟨h1.prep, h1.ham, h1.steps⟩ hls h2 h3 h6 h7 rfl h4 N o so fuel hE h5
  exact ⟨rfl, by decide, by norm_num [demo], ls, eig, _, _, hls, hE, e, e'⟩

end QiteAlg
end QF
