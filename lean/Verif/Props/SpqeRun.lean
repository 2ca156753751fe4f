import Verif.Props.SpqeUpdate
import Verif.Props.Jacobi

/-!
C88: the macro-iterations of SPQE with exact residuals (`M_omega = "inf"`).
-/
namespace QF

open SQOperator (DescSort)
open QubitOperator (SortOracle)
open SQOpPool

/-! ### operators with amplitude zero in front of the others -/

theorem foldlM_prefix {α β : Type} (f : β → Except Exc (List α)) (l : List β) (zs acc : List α) :
    l.foldlM (fun a p => do let e ← f p; pure (a ++ e)) (zs ++ acc) = (l.foldlM (fun a p => (do let e ← f p; pure (a ++ e) : Except Exc (List α))) acc).map fun r => zs ++ r := by
  induction l generalizing acc with
  | nil => rfl
  | cons p l ih =>
    rw [List.foldlM_cons, List.foldlM_cons]
    cases f p with
    | error e => rfl
    | ok e =>
      simp only [except_ok_bind, pure, Except.pure, List.append_assoc] at ih ⊢
      exact ih (acc ++ e)

theorem foldlM_neutral_front {α β : Type} {f : α → β → Except Exc α} (z l : List β) (a : α) (h : ∀ a, ∀ b ∈ z, f a b = .ok a) :
    (z ++ l).foldlM f a = l.foldlM f a := by
  induction z with
  | nil => rfl
  | cons b z ih =>
    rw [List.cons_append, List.foldlM_cons, h a b (by simp), except_ok_bind]
    exact ih fun a b hb => h a b (by simp [hb])

namespace Spqe

/-- C88: putting operators with amplitude zero in front of the others does not change the ansatz circuit at all (standard circuits, any pool, any Trotter number). -/
theorem C88_neutral (o : DescSort) (so : SortOracle) (A : UccAlg) (hp : A.PoolSound) (hc : A.compact = false) (ts : List ℝ) (ms : List ℕ)
    (hm : ∀ m ∈ ms, m < A.pool.length) (ts' : List ℝ) :
    ({ A with tops := ms ++ A.tops, tamps := ts' } : UccAlg).ansatzCircuit o so (some ((ms.map fun _ => 0) ++ ts)) = A.ansatzCircuit o so (some ts) := by
  unfold UccAlg.ansatzCircuit UccAlg.ansatzWith
  rw [Option.getD_some, Option.getD_some]
  obtain ⟨zs, h2, hz⟩ := tempPool_zeros (A := A) ms hm []
  have hT : ({ A with tops := ms ++ A.tops, tamps := ts' } : UccAlg).tempPool ((ms.map fun _ => 0) ++ ts) = (A.tempPool ts).map fun l => zs ++ l := by
    unfold UccAlg.tempPool
    rw [List.zip_append (by simp), List.foldlM_append]
    erw [h2]
    rw [except_ok_bind, List.nil_append]
    have := foldlM_prefix A.tempElems (List.zip ts A.tops) zs []
    rw [List.append_nil] at this
    exact this
  rw [hT]
  cases hA : A.tempPool ts with
  | error e => rfl
  | ok l =>
    simp only [Except.map, except_ok_bind, hc, Bool.false_eq_true, if_false]
    have : SQOpPool.getQubitOperator o so { terms := zs ++ l } "commuting_grp_lex" true A.qubitExc =
        SQOpPool.getQubitOperator o so { terms := l } "commuting_grp_lex" true A.qubitExc := by
      unfold SQOpPool.getQubitOperator
      rw [if_neg (by decide), if_pos rfl, if_neg (by decide), if_pos rfl]
      refine foldlM_neutral_front zs l [] fun a z hzm => ?_
      obtain ⟨h0, e, he, hs⟩ := hz z hzm
      obtain ⟨h1, h2⟩ := hp e he z.2 hs
      have := groupStep_amp_zero o so true A.qubitExc z.2 h1 h2 a
      rw [← h0] at this
      exact this
    rw [this]

/-- C88: so the energy at the start of every solve is the energy at the end of the one before. -/
theorem C88_neutral_energy (o : DescSort) (so : SortOracle) (par : Option Schedule) (A : UccAlg) (hp : A.PoolSound) (hc : A.compact = false) (ms : List ℕ)
    (hm : ∀ m ∈ ms, m < A.pool.length) :
    ({ A with tops := ms ++ A.tops, tamps := (ms.map fun _ => 0) ++ A.tamps } : UccAlg).energyFeval o so par ((ms.map fun _ => 0) ++ A.tamps) =
      A.energyFeval o so par A.tamps := by
  unfold UccAlg.energyFeval UccAlg.buildUvqc
  rw [C88_neutral o so A hp hc A.tamps ms hm]
  rfl

end Spqe

/-! ### the solver keeps the number of amplitudes -/

theorem npAdd_length {a b t : List ℝ} (h : npAdd a b = .ok t) : t.length = a.length := by
  unfold npAdd at h
  split at h
  · next h' => cases h; simp [h']
  · cases h

theorem diis_length {lstsq : List (List ℝ) → List ℝ → List ℝ} {maxDim n : ℕ} {ts es ts' es' : List (List ℝ)} {t : List ℝ} (h : diis lstsq maxDim ts es = .ok (t, ts', es'))
    (hn : ∀ x ∈ ts, x.length = n) : t.length = n ∧ ∀ x ∈ ts', x.length = n := by
  unfold diis at h
  obtain ⟨⟨us, vs⟩, hu, hsub⟩ : ∃ p : List (List ℝ) × List (List ℝ), (if ts.length > maxDim then (ts.drop 1, es.drop 1) else (ts, es)) = p ∧ ∀ x ∈ p.1, x ∈ ts := by
    refine ⟨_, rfl, ?_⟩
    split
    · intro x hx; exact List.mem_of_mem_drop hx
    · intro x hx; exact hx
  rw [hu] at h
  simp only at h hsub
  obtain ⟨M, _, h⟩ := bindOk h
  split at h
  · cases h
  obtain ⟨t0, h0, h⟩ := bindOk h
  obtain ⟨t1, h1, h⟩ := bindOk h
  cases h
  have ht0 : t0 ∈ ts' := by
    unfold pyIndex at h0
    split at h0
    · next h' => cases h0; exact List.mem_of_getElem? h'
    · cases h0
  have hlen := hn _ (hsub _ ht0)
  refine ⟨?_, fun x hx => hn _ (hsub _ hx)⟩
  have key : ∀ (l : List ℕ) (a b : List ℝ), l.foldlM (fun t l => (do
      let c ← pyIndex (lstsq (diisMatrix M) (List.replicate (ts'.length - 1) 0 ++ [-1])).dropLast l
      let tl ← pyIndex ts' (l + 1)
      npAdd t (tl.map (c * ·)) : Except Exc (List ℝ))) a = .ok b → b.length = a.length := by
    intro l
    induction l with
    | nil => intro a b h; cases h; rfl
    | cons i l ih =>
      intro a b h
      rw [List.foldlM_cons] at h
      obtain ⟨a', h1, h2⟩ := bindOk h
      obtain ⟨c, _, h1⟩ := bindOk h1
      obtain ⟨tl, _, h1⟩ := bindOk h1
      rw [ih _ _ h2, npAdd_length h1]
  rw [key _ _ _ h1, List.length_replicate, hlen]

theorem jacobiLoop_length {J : JacobiEnv} {n : ℕ} : ∀ (fuel k0 : ℕ) (s s' : JacobiState) (k : ℕ), jacobiLoop J fuel k0 s = .ok (s', k) →
    s.tamps.length = n → (∀ x ∈ s.tDiis, x.length = n) → s'.tamps.length = n := by
  intro fuel
  induction fuel with
  | zero => intro k0 s s' k h h1 _; cases h; exact h1
  | succ fuel ih =>
    intro k0 s s' k h h1 h2
    unfold jacobiLoop at h
    obtain ⟨s1, hs, h⟩ := bindOk h
    have hs1 : s1.tamps.length = n ∧ ∀ x ∈ s1.tDiis, x.length = n := by
      obtain ⟨_, r, u, t, e, _, _, a3, _, _, a6, a7⟩ := jacobiStep_of hs
      have ht := (npAdd_length a3).trans h1
      have hmem : ∀ x ∈ s.tDiis ++ [t], x.length = n := by
        intro x hx
        rcases List.mem_append.1 hx with hx | hx
        · exact h2 x hx
        · rw [List.mem_singleton.1 hx]; exact ht
      rcases Nat.lt_or_ge J.diisMaxDim 2 with hd | hd
      · obtain ⟨b1, b2, _⟩ := a6 hd
        rw [b1, b2]; exact ⟨ht, hmem⟩
      · exact diis_length (a7 hd) hmem
    split at h
    · cases h; exact hs1.1
    · exact ih _ _ _ _ h hs1.1 hs1.2

/-- C75: the solver returns as many amplitudes as it was given. -/
theorem C75_length (J : JacobiEnv) (t0 t : List ℝ) (E : ℝ) (k : ℕ) (h : jacobiSolver J t0 = .ok (t, E, k)) : t.length = t0.length := by
  unfold jacobiSolver at h
  obtain ⟨E0, _, h⟩ := bindOk h
  split at h
  · cases h
  obtain ⟨⟨s, k'⟩, h1, h⟩ := bindOk h
  cases h
  exact jacobiLoop_length _ _ _ _ _ h1 rfl (by simp)

end QF
