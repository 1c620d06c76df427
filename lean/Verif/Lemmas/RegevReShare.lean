import Verif.Lemmas.RegevKeyRun
import Verif.Spec.Shamir

namespace Verif
open Spec Regev
open scoped BigOperators

section
variable {q : ℕ} [Fact q.Prime] {G : Type} [AddCommGroup G] [Module (ZMod q) G]

theorem zipIdx_map_sum (l : List (ZMod q)) (off k : ℕ) (x : ℕ → ZMod q) :
    ((l.zipIdx k).map fun p => p.1 * x (off + p.2)).sum =
      ∑ i ∈ Finset.range l.length, l.getD i 0 * x (off + k + i) := by
  induction l generalizing k with
  | nil => simp
  | cons a l ih =>
    rw [List.zipIdx_cons, List.map_cons, List.sum_cons, ih (k + 1), List.length_cons,
      Finset.sum_range_succ', add_comm]
    congr 1
    refine Finset.sum_congr rfl fun i _ => ?_
    rw [List.getD_cons_succ]
    congr 2
    omega

theorem zip_range'_sum (l : List (ZMod q)) (off : ℕ) (x : ℕ → ZMod q) :
    ((l.zip ((List.range' off l.length).map x)).map fun p => p.1 * p.2).sum =
      ∑ i ∈ Finset.range l.length, l.getD i 0 * x (off + i) := by
  induction l generalizing off with
  | nil => simp
  | cons a l ih =>
    rw [List.length_cons, List.range'_succ, List.map_cons, List.zip_cons_cons, List.map_cons,
      List.sum_cons, ih, Finset.sum_range_succ', add_comm]
    congr 1
    refine Finset.sum_congr rfl fun i _ => ?_
    rw [List.getD_cons_succ]
    congr 2
    omega

/-- The constraint of one row of the parity-check matrix. -/
theorem reShareRow_spec {ix : Indexes} {tee enn : ℕ} {lagrange row : List (ZMod q)}
    (hl : lagrange.length = tee) (hr : row.length = 1 + enn) :
    ∃ c, reShareRow ix tee enn lagrange row = .ok c ∧ Sorted c.terms ∧
      (∀ k ∈ keys c.terms, (ix.pt1 ≤ k ∧ k < ix.pt1 + tee) ∨ (ix.pt2 ≤ k ∧ k < ix.pt2 + enn)) ∧
      ∀ x, LinSat c x ↔
        ((row.zip (resharing lagrange ix.pt1 ix.pt2 enn x)).map fun p => p.1 * p.2).sum = 0 := by
  obtain ⟨h0, hs, rfl⟩ : ∃ h0 hs, row = h0 :: hs := by
    cases row with
    | nil => simp at hr; omega
    | cons a l => exact ⟨a, l, rfl⟩
  have hh : hs.length = enn := by rw [List.length_cons] at hr; omega
  subst hh hl
  unfold reShareRow
  rw [rdN_ok (by simp), Res.ok_bind, rdN_ok le_rfl, Res.ok_bind, rdN_ok (by simp), Res.ok_bind,
    List.take_length]
  simp only [List.take_succ_cons, List.take_zero, List.headD_cons, List.drop_succ_cons, List.drop_zero,
    List.take_length]
  refine ⟨_, rfl, foldl_sorted _ _ _ _ (foldl_sorted _ _ _ _ (by simp [Sorted])), ?_, ?_⟩
  · intro k hk
    rcases foldl_keys _ _ _ _ k hk with ⟨p, hp, rfl⟩ | hk
    · right
      have := List.snd_lt_of_mem_zipIdx hp
      omega
    · rcases foldl_keys _ _ _ _ k hk with ⟨p, hp, rfl⟩ | hk
      · left
        have := List.snd_lt_of_mem_zipIdx hp
        omega
      · simp [keys] at hk
  · intro x
    have e : ∀ c : LinConstraint (ZMod q), LinSat c x ↔ linLhs c x = c.equalsTo := fun c => Iff.rfl
    rw [e, foldl_equalsTo, foldl_equalsTo, linLhs_foldl, linLhs_foldl]
    unfold resharing
    rw [List.zip_cons_cons, List.map_cons, List.sum_cons, zip_range'_sum]
    have z := zipIdx_map_sum hs ix.pt2 0 x
    have z2 := zipIdx_map_sum lagrange ix.pt1 0 x
    simp only [Nat.add_zero] at z z2
    rw [z]
    have : (lagrange.zipIdx.map fun j => h0 * j.1 * x (ix.pt1 + j.2)) =
        lagrange.zipIdx.map fun j => h0 * (j.1 * x (ix.pt1 + j.2)) := by simp only [mul_assoc]
    rw [this, List.sum_map_mul_left, z2]
    simp [linLhs]

/-- What the loop over the rows records. -/
theorem reShareLoop_spec {ix : Indexes} {tee enn : ℕ} {lagrange : List (ZMod q)}
    (hl : lagrange.length = tee) : ∀ (H : List (List (ZMod q))), (∀ row ∈ H, row.length = 1 + enn) →
    ∀ (i : ℕ) (cs : List (LinConstraint (ZMod q))), i + H.length ≤ cs.length →
    ∃ out, reShareLoop ix tee enn lagrange H i cs = .ok out ∧ out.length = cs.length ∧
      (∀ j, (j < i ∨ i + H.length ≤ j) → out[j]? = cs[j]?) ∧
      (∀ j row, H[j]? = some row → ∃ c, out[i + j]? = some c ∧
        reShareRow ix tee enn lagrange row = .ok c) := by
  intro H
  induction H with
  | nil => intro _ i cs _; exact ⟨cs, rfl, rfl, fun _ _ => rfl, fun j row h => by simp at h⟩
  | cons row H ih =>
    intro hrow i cs hi
    rw [List.length_cons] at hi
    obtain ⟨c, hc, -⟩ := reShareRow_spec (ix := ix) hl (hrow row List.mem_cons_self)
    obtain ⟨out, h1, h2, h3, h4⟩ := ih (fun r hr => hrow r (List.mem_cons_of_mem _ hr)) (i + 1)
      (cs.set i c) (by rw [List.length_set]; omega)
    refine ⟨out, ?_, by rw [h2, List.length_set], ?_, ?_⟩
    · rw [reShareLoop, hc, Res.ok_bind, if_neg (by omega), h1]
    · intro j hj
      rw [List.length_cons] at hj
      rw [h3 j (by omega), List.getElem?_set_ne (by omega)]
    · intro j row' hr
      cases j with
      | zero =>
        obtain rfl := Option.some.inj hr
        refine ⟨c, ?_, hc⟩
        rw [Nat.add_zero, h3 i (by omega), List.getElem?_set_self (by omega)]
      | succ j =>
        obtain ⟨c', h5, h6⟩ := h4 j row' hr
        exact ⟨c', by rw [← h5]; congr 1; omega, h6⟩

/-- What a resharing proof records, and when it is an error. -/
theorem reshare_run {St : Type} {P : Params q} {vd : VerifierData (ZMod q) G St} {pd : ProverData (ZMod q)}
    {lagrange pt1 pt2 : List (ZMod q)} :
    (pt1.length = P.gk.tee ∧ lagrange.length = P.gk.tee ∧ pt2.length = P.gk.enn ∧
      (∀ row ∈ P.H, row.length = 1 + P.gk.enn) ∧ 14 + P.H.length ≤ vd.linConstr.length →
      ∃ lin, proveReShare P vd pd lagrange pt1 pt2 = .ok ({ vd with linConstr := lin }, pd) ∧
        lin.length = vd.linConstr.length ∧
        (∀ j, (j < 14 ∨ 14 + P.H.length ≤ j) → lin[j]? = vd.linConstr[j]?) ∧
        (∀ j row, P.H[j]? = some row → ∃ c, lin[14 + j]? = some c ∧ Sorted c.terms ∧
          (∀ k ∈ keys c.terms, (vd.ix.pt1 ≤ k ∧ k < vd.ix.pt1 + P.gk.tee) ∨
            (vd.ix.pt2 ≤ k ∧ k < vd.ix.pt2 + P.gk.enn)) ∧
          ∀ x, LinSat c x ↔ ((row.zip (resharing lagrange vd.ix.pt1 vd.ix.pt2 P.gk.enn x)).map
            fun p => p.1 * p.2).sum = 0)) ∧
    (¬ (pt1.length = P.gk.tee ∧ lagrange.length = P.gk.tee ∧ pt2.length = P.gk.enn ∧
      (∀ row ∈ P.H, row.length = 1 + P.gk.enn) ∧ 14 + P.H.length ≤ vd.linConstr.length) →
      proveReShare P vd pd lagrange pt1 pt2 = .throw) := by
  unfold proveReShare
  constructor
  · rintro ⟨h1, h2, h3, h4, h5⟩
    rw [if_neg (by
      rintro (h | h | h | h)
      · exact h h1
      · exact h (h2.trans h1.symm)
      · exact h h3
      · exact h (by rw [h3]; exact h4)), if_neg (by omega)]
    obtain ⟨out, e1, e2, e3, e4⟩ := reShareLoop_spec (ix := vd.ix) h2 P.H h4 14 vd.linConstr h5
    rw [e1, Res.ok_bind]
    refine ⟨out, rfl, e2, e3, fun j row hr => ?_⟩
    obtain ⟨c, f1, f2⟩ := e4 j row hr
    obtain ⟨c', g1, g2, g3, g4⟩ := reShareRow_spec (ix := vd.ix) h2
      (h4 row (List.mem_iff_getElem?.2 ⟨j, hr⟩))
    rw [f2] at g1
    obtain rfl := Res.ok.inj g1
    exact ⟨c, f1, g2, g3, g4⟩
  · intro h
    by_cases hc : pt1.length ≠ P.gk.tee ∨ lagrange.length ≠ pt1.length ∨ pt2.length ≠ P.gk.enn ∨
      ¬ (∀ row ∈ P.H, row.length = 1 + pt2.length)
    · rw [if_pos hc]
    · rw [if_neg hc]
      simp only [not_or, not_not] at hc
      obtain ⟨h1, h2, h3, h4⟩ := hc
      rw [if_pos]
      by_contra hlt
      exact h ⟨h1, h2.trans h1, h3, h3 ▸ h4, by omega⟩

end
end Verif
