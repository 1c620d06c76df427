/- The provers throw exactly when one of their own folding challenges is zero. -/
import Verif.Spec.Honest
import Verif.Lemmas.BPComplete

namespace Verif
open Spec

section
variable {F G : Type} [Field F] [AddCommGroup G] [Module F G]

theorem foldP_halve (h : Nat) (c : F) (l : List G) : foldP h c l = halve h c l := by
  apply List.ext_getElem?
  intro i
  unfold foldP halve
  rw [getElem?_addInto, List.getElem?_map, List.getElem?_map, List.getElem?_drop]
  by_cases hi : i < min h l.length
  · rw [List.getElem?_take, if_pos (by omega), List.getElem?_eq_getElem (show i < l.length by omega),
      List.getElem?_eq_getElem (show i < (List.range (min h l.length)).length by simpa using hi), List.getElem_range,
      Option.map_some, List.getD_eq_getElem?_getD, List.getElem?_eq_getElem (show i < l.length by omega),
      List.getD_eq_getElem?_getD]
    by_cases hlt : h + i < l.length
    · rw [List.getElem?_eq_getElem hlt]
      rfl
    · rw [List.getElem?_eq_none (by omega)]
      simp
  · rw [List.getElem?_eq_none (show (l.take h).length ≤ i by simp; omega),
      List.getElem?_eq_none (show (List.range (min h l.length)).length ≤ i by simp; omega)]
    simp

theorem foldS_halve (h : Nat) (c : F) (l : List F) : foldS h c l = halve h c l := by
  rw [foldS_eq_foldP, foldP_halve]

theorem log2roundUp_clog {n : Nat} (h : n ≤ 2 ^ 63) : log2roundUp n = Nat.clog 2 n := by
  symm
  apply le_antisymm
  · exact (Nat.clog_le_iff_le_pow (by norm_num)).2 (log2roundUp_le h).2
  · exact (log2roundUp_le_iff h).2 (Nat.le_pow_clog (by norm_num) n)

variable [DecidableEq F] [DecidableEq G]

theorem proveLinLoop_levels (E : Env F G) (coins : Nat → F × F) (Fg : G) (ell : Nat) :
    ∀ (n h : Nat) (s : LinProverState F G E.St), Level n h ell → s.as.length = n →
      s.bs.length = n → s.gs.length = n →
      (0 ∈ linLevels E coins Fg ell n s.st s.k s.as s.bs s.gs ∧ proveLinLoop E coins Fg n h s = .throw) ∨
      (0 ∉ linLevels E coins Fg ell n s.st s.k s.as s.bs s.gs ∧ ∃ e Ls Rs, proveLinLoop E coins Fg n h s = .ok e ∧
        e.Ls = s.Ls ++ Ls ∧ e.Rs = s.Rs ++ Rs ∧ Ls.length = ell ∧ Rs.length = ell ∧
        (foldChallenges E n s.st Ls Rs).1 = linLevels E coins Fg ell n s.st s.k s.as s.bs s.gs) := by
  induction ell with
  | zero =>
    intro n h s hl ha hb hg
    have hn : n = 1 := hl
    subst hn
    exact Or.inr ⟨by simp [linLevels], s, [], [], by rw [proveLinLoop, if_neg (by omega)], by simp, by simp, rfl, rfl,
      by simp [linLevels, foldChallenges]⟩
  | succ m ih =>
    intro n h s hl ha hb hg
    obtain ⟨hh1, hh2, hh3, hh4⟩ := hl.half
    obtain ⟨L, R, hL, hR, h0, h1⟩ := proveLinLoop_step E coins Fg s hl ha hb hg
    obtain ⟨ch, hch⟩ : ∃ ch, ch = E.challenge (E.commit (E.commit s.st (decBytes n ++ [76])
      (E.pointBytes L)) [82] (E.pointBytes R)) [120] 64 := ⟨_, rfl⟩
    rw [← hch] at h0 h1
    have e : linLevels E coins Fg (m + 1) n s.st s.k s.as s.bs s.gs = E.scalarReduce ch.1 ::
        linLevels E coins Fg m h ch.2 (s.k + 1) (foldS h (E.scalarReduce ch.1)⁻¹ s.as)
          (foldS h (E.scalarReduce ch.1) s.bs) (foldP h (E.scalarReduce ch.1) s.gs) := by
      rw [linLevels]
      simp only [← hh4, ← hL, ← hR, ← hch, foldS_halve, foldP_halve]
    rw [e]
    by_cases hx : E.scalarReduce ch.1 = 0
    · exact Or.inl ⟨by simp [hx], h0 hx⟩
    · rw [h1 hx, List.mem_cons, or_iff_right (Ne.symm hx)]
      rcases ih h (h / 2) ⟨s.Ls ++ [L], s.Rs ++ [R], foldS h (E.scalarReduce ch.1)⁻¹ s.as,
          foldS h (E.scalarReduce ch.1) s.bs, foldP h (E.scalarReduce ch.1) s.gs,
            s.r + ((coins s.k).1 * (E.scalarReduce ch.1) + (coins s.k).2 * (E.scalarReduce ch.1)⁻¹),
            ch.2, s.k + 1⟩ hl.next (by simp; omega) (by simp; omega) (by simp; omega) with
        h | ⟨i1, e, Ls, Rs, i2, i3, i4, i5, i6, i7⟩
      · exact Or.inl h
      · refine Or.inr ⟨i1, e, L :: Ls, R :: Rs, i2, by simp [i3], by simp [i4], by simp [i5], by simp [i6], ?_⟩
        rw [foldChallenges_cons, i5, ← hh4, ← hch]
        exact congrArg (List.cons _) i7

theorem proveQuadLoop_levels (E : Env F G) (coins : Nat → F × F) (Fg : G) (ell : Nat) :
    ∀ (n h : Nat) (s : QuadProverState F G E.St), Level n h ell → s.as.length = n →
      s.bs.length = n → s.gs.length = n → s.hs.length = n →
      (0 ∈ quadLevels E coins Fg ell n s.st s.k s.as s.bs s.gs s.hs ∧ proveQuadLoop E coins Fg n h s = .throw) ∨
      (0 ∉ quadLevels E coins Fg ell n s.st s.k s.as s.bs s.gs s.hs ∧
        ∃ e Ls Rs, proveQuadLoop E coins Fg n h s = .ok e ∧
        e.Ls = s.Ls ++ Ls ∧ e.Rs = s.Rs ++ Rs ∧ Ls.length = ell ∧ Rs.length = ell ∧
        (foldChallenges E n s.st Ls Rs).1 = quadLevels E coins Fg ell n s.st s.k s.as s.bs s.gs s.hs) := by
  induction ell with
  | zero =>
    intro n h s hl ha hb hg hhs
    have hn : n = 1 := hl
    subst hn
    exact Or.inr ⟨by simp [quadLevels], s, [], [], by rw [proveQuadLoop, if_neg (by omega)], by simp, by simp, rfl, rfl,
      by simp [quadLevels, foldChallenges]⟩
  | succ m ih =>
    intro n h s hl ha hb hg hhs
    obtain ⟨hh1, hh2, hh3, hh4⟩ := hl.half
    obtain ⟨L, R, hL, hR, h0, h1⟩ := proveQuadLoop_step E coins Fg s hl ha hb hg hhs
    obtain ⟨ch, hch⟩ : ∃ ch, ch = E.challenge (E.commit (E.commit s.st (decBytes n ++ [76])
      (E.pointBytes L)) [82] (E.pointBytes R)) [120] 64 := ⟨_, rfl⟩
    rw [← hch] at h0 h1
    have e : quadLevels E coins Fg (m + 1) n s.st s.k s.as s.bs s.gs s.hs = E.scalarReduce ch.1 ::
        quadLevels E coins Fg m h ch.2 (s.k + 1) (foldS h (E.scalarReduce ch.1)⁻¹ s.as)
          (foldS h (E.scalarReduce ch.1) s.bs) (foldP h (E.scalarReduce ch.1) s.gs)
          (foldP h (E.scalarReduce ch.1)⁻¹ s.hs) := by
      rw [quadLevels]
      simp only [← hh4, ← hL, ← hR, ← hch, foldS_halve, foldP_halve]
    rw [e]
    by_cases hx : E.scalarReduce ch.1 = 0
    · exact Or.inl ⟨by simp [hx], h0 hx⟩
    · rw [h1 hx, List.mem_cons, or_iff_right (Ne.symm hx)]
      rcases ih h (h / 2) ⟨s.Ls ++ [L], s.Rs ++ [R], foldP h (E.scalarReduce ch.1) s.gs,
          foldS h (E.scalarReduce ch.1)⁻¹ s.as, foldP h (E.scalarReduce ch.1)⁻¹ s.hs,
          foldS h (E.scalarReduce ch.1) s.bs,
            s.r + ((coins s.k).1 * (E.scalarReduce ch.1) + (coins s.k).2 * (E.scalarReduce ch.1)⁻¹),
            ch.2, s.k + 1⟩ hl.next (by simp; omega) (by simp; omega) (by simp; omega) (by simp; omega) with
        h | ⟨i1, e, Ls, Rs, i2, i3, i4, i5, i6, i7⟩
      · exact Or.inl h
      · refine Or.inr ⟨i1, e, L :: Ls, R :: Rs, i2, by simp [i3], by simp [i4], by simp [i5], by simp [i6], ?_⟩
        rw [foldChallenges_cons, i5, ← hh4, ← hch]
        exact congrArg (List.cons _) i7

theorem proveLinear_iff (E : Env F G) (coins : Nat → F × F) (pf : LinPf F G) (r : F) (st : E.St)
    (as bs : List F) (gs : List G) (n : Nat) (hn1 : 1 ≤ n) (hn2 : n ≤ 2 ^ 63) (ha : as.length = n)
    (hb : bs.length = n) (hg : gs.length = n) (hL : pf.Ls = []) (hR : pf.Rs = []) :
    (0 ∈ linChallenges E coins pf.C st as bs gs n ∧ proveLinear E coins pf r st as bs gs n = .throw) ∨
    (0 ∉ linChallenges E coins pf.C st as bs gs n ∧
      ∃ pf' st', proveLinear E coins pf r st as bs gs n = .ok (pf', st') ∧
        (deriveLin E pf' n st).xs = linChallenges E coins pf.C st as bs gs n) := by
  obtain ⟨f, hf⟩ : ∃ f, f = E.challenge (E.commit st [67] (E.pointBytes pf.C)) [70] 32 := ⟨_, rfl⟩
  have hs := proveLinear_spec E coins pf r st as bs gs n hn1 hn2 ha hb hg hL hR
  have hq := proveLinLoop_levels E coins (E.fromUniform f.1) (log2roundUp n) n (next2power n / 2)
    ⟨pf.Ls, pf.Rs, as, bs, gs, r, f.2, 0⟩ (level_log hn1 hn2) ha hb hg
  rw [log2roundUp_clog hn2] at hq
  unfold linChallenges
  simp only [← hf]
  rcases hq with ⟨h1, h2⟩ | ⟨h1, e, Ls, Rs, h2, h4, h5, h6, h7, h8⟩
  · refine Or.inl ⟨h1, ?_⟩
    simp only [proveLinear, Env.newGenerator, Env.processPoint, lblC, lblF, ← hf, h2, Res.throw_bind]
  · refine Or.inr ⟨h1, ?_⟩
    rcases hs with ⟨h3, -⟩ | ⟨pf', h3, -⟩
    · exfalso
      simp only [proveLinear, Env.newGenerator, Env.processPoint, lblC, lblF, ← hf, h2, Res.ok_bind] at h3
      unfold rd at h3
      split at h3 <;> try (simp at h3)
      split at h3 <;> try (simp at h3)
      split at h3 <;> simp at h3
    · refine ⟨pf', _, h3, ?_⟩
      simp only [proveLinear, Env.newGenerator, Env.processPoint, lblC, lblF, ← hf, h2, Res.ok_bind] at h3
      simp only [hL, hR, List.nil_append] at h4 h5
      obtain ⟨_, -, h3⟩ := Res.bind_eq_ok.1 h3
      obtain ⟨_, -, h3⟩ := Res.bind_eq_ok.1 h3
      obtain ⟨_, -, h3⟩ := Res.bind_eq_ok.1 h3
      have e1 := congrArg Prod.fst (Res.ok.inj h3)
      dsimp only at e1
      have e2 : pf'.Ls = Ls := by rw [← e1]; exact h4
      have e3 : pf'.Rs = Rs := by rw [← e1]; exact h5
      have e4 : pf'.C = pf.C := by rw [← e1]
      unfold deriveLin
      simp only [e2, e3, e4, ← hf]
      exact h8

theorem proveQuadratic_iff (E : Env F G) (coins : Nat → F × F) (pf : QuadPf F G) (r : F) (st : E.St)
    (as bs : List F) (gs hs : List G) (n : Nat) (hn1 : 1 ≤ n) (hn2 : n ≤ 2 ^ 63) (ha : as.length = n)
    (hb : bs.length = n) (hg : gs.length = n) (hh : hs.length = n) (hL : pf.Ls = []) (hR : pf.Rs = []) :
    (0 ∈ quadChallenges E coins pf.C st as bs gs hs n ∧ proveQuadratic E coins pf r st gs as hs bs n = .throw) ∨
    (0 ∉ quadChallenges E coins pf.C st as bs gs hs n ∧
      ∃ pf' st', proveQuadratic E coins pf r st gs as hs bs n = .ok (pf', st') ∧
        (deriveQuad E pf' n st).xs = quadChallenges E coins pf.C st as bs gs hs n) := by
  obtain ⟨f, hf⟩ : ∃ f, f = E.challenge (E.commit st [67] (E.pointBytes pf.C)) [70] 32 := ⟨_, rfl⟩
  have hs' := proveQuadratic_spec E coins pf r st as bs gs hs n hn1 hn2 ha hb hg hh hL hR
  have hq := proveQuadLoop_levels E coins (E.fromUniform f.1) (log2roundUp n) n (next2power n / 2)
    ⟨pf.Ls, pf.Rs, gs, as, hs, bs, r, f.2, 0⟩ (level_log hn1 hn2) ha hb hg hh
  rw [log2roundUp_clog hn2] at hq
  unfold quadChallenges
  simp only [← hf]
  rcases hq with ⟨h1, h2⟩ | ⟨h1, e, Ls, Rs, h2, h4, h5, h6, h7, h8⟩
  · refine Or.inl ⟨h1, ?_⟩
    simp only [proveQuadratic, Env.newGenerator, Env.processPoint, lblC, lblF, ← hf, h2, Res.throw_bind]
  · refine Or.inr ⟨h1, ?_⟩
    rcases hs' with ⟨h3, -⟩ | ⟨pf', h3, -⟩
    · exfalso
      simp only [proveQuadratic, Env.newGenerator, Env.processPoint, lblC, lblF, ← hf, h2, Res.ok_bind] at h3
      unfold rd at h3
      split at h3 <;> try (simp at h3)
      split at h3 <;> try (simp at h3)
      split at h3 <;> try (simp at h3)
      split at h3 <;> simp at h3
    · refine ⟨pf', _, h3, ?_⟩
      simp only [proveQuadratic, Env.newGenerator, Env.processPoint, lblC, lblF, ← hf, h2, Res.ok_bind] at h3
      simp only [hL, hR, List.nil_append] at h4 h5
      obtain ⟨_, -, h3⟩ := Res.bind_eq_ok.1 h3
      obtain ⟨_, -, h3⟩ := Res.bind_eq_ok.1 h3
      obtain ⟨_, -, h3⟩ := Res.bind_eq_ok.1 h3
      obtain ⟨_, -, h3⟩ := Res.bind_eq_ok.1 h3
      have e1 := congrArg Prod.fst (Res.ok.inj h3)
      dsimp only at e1
      have e2 : pf'.Ls = Ls := by rw [← e1]; exact h4
      have e3 : pf'.Rs = Rs := by rw [← e1]; exact h5
      have e4 : pf'.C = pf.C := by rw [← e1]
      unfold deriveQuad
      simp only [e2, e3, e4, ← hf]
      exact h8

omit [DecidableEq F] [DecidableEq G] in
theorem linLevels_ne_zero (E : Env F G) (hnz : ∀ b, E.scalarReduce b ≠ 0) (coins : Nat → F × F) (Fg : G) (m : Nat) :
    ∀ (n : Nat) (st : E.St) (k : Nat) (as bs : List F) (gs : List G),
      (0 : F) ∉ linLevels E coins Fg m n st k as bs gs := by
  induction m with
  | zero => simp [linLevels]
  | succ m ih => intro n st k as bs gs; rw [linLevels, List.mem_cons, not_or]; exact ⟨(hnz _).symm, ih _ _ _ _ _ _⟩

omit [DecidableEq F] [DecidableEq G] in
theorem quadLevels_ne_zero (E : Env F G) (hnz : ∀ b, E.scalarReduce b ≠ 0) (coins : Nat → F × F) (Fg : G) (m : Nat) :
    ∀ (n : Nat) (st : E.St) (k : Nat) (as bs : List F) (gs hs : List G),
      (0 : F) ∉ quadLevels E coins Fg m n st k as bs gs hs := by
  induction m with
  | zero => simp [quadLevels]
  | succ m ih => intro n st k as bs gs hs; rw [quadLevels, List.mem_cons, not_or]; exact ⟨(hnz _).symm, ih _ _ _ _ _ _ _⟩

omit [DecidableEq F] [DecidableEq G] in
/-- For environments in which no challenge is ever zero (used in examples only). -/
theorem linChallenges_ne_zero (E : Env F G) (hnz : ∀ b, E.scalarReduce b ≠ 0) (coins : Nat → F × F) (C : G)
    (st : E.St) (as bs : List F) (gs : List G) (n : Nat) : (0 : F) ∉ linChallenges E coins C st as bs gs n :=
  linLevels_ne_zero E hnz _ _ _ _ _ _ _ _ _

omit [DecidableEq F] [DecidableEq G] in
theorem quadChallenges_ne_zero (E : Env F G) (hnz : ∀ b, E.scalarReduce b ≠ 0) (coins : Nat → F × F) (C : G)
    (st : E.St) (as bs : List F) (gs hs : List G) (n : Nat) :
    (0 : F) ∉ quadChallenges E coins C st as bs gs hs n :=
  quadLevels_ne_zero E hnz _ _ _ _ _ _ _ _ _ _

end

end Verif
