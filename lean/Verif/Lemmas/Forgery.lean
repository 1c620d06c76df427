/- The cheating prover of `Verif/Spec/Forgery.lean` succeeds. -/
import Verif.Spec.Forgery
import Verif.Lemmas.BPComplete
import Verif.Lemmas.Honest
import Mathlib.Tactic.Module
import Mathlib.Tactic.LinearCombination

namespace Verif
open Spec

section
variable {F G : Type} [Field F] [AddCommGroup G] [Module F G]

theorem mexp_modify (l : List F) (gs : List G) (j : Nat) (c : F) (h1 : j < l.length) :
    mexp (l.modify j (· + c)) gs = mexp l gs + c • gs.getD j 0 := by
  induction l generalizing j gs with
  | nil => simp at h1
  | cons a l ih =>
    cases gs with
    | nil => simp
    | cons g gs =>
      cases j with
      | zero => simp; module
      | succ j => simp [ih gs j (by simpa using h1), add_assoc]

theorem getD_modify (l : List F) (j : Nat) (c : F) (h : j < l.length) :
    (l.modify j (· + c)).getD j 0 = l.getD j 0 + c := by
  simp [List.getD_eq_getElem?_getD, h]

theorem dot_modify (a b : List F) (j : Nat) (c d : F) (h1 : j < a.length) (h2 : j < b.length) :
    dot (a.modify j (· + c)) (b.modify j (· + d)) =
      dot a b + c * b.getD j 0 + d * a.getD j 0 + c * d := by
  rw [dot_eq_mexp, mexp_modify _ _ _ _ h1, getD_modify _ _ _ h2, ← dot_eq_mexp, dot_comm, dot_eq_mexp,
    mexp_modify _ _ _ _ h2, ← dot_eq_mexp, dot_comm]
  simp only [smul_eq_mul]
  ring

theorem getD_foldP (h : Nat) (c : F) (l : List G) (j : Nat) (hj : j < h) (h1 : h ≤ l.length)
    (h2 : l.length ≤ j + h) : (foldP h c l).getD j 0 = l.getD j 0 := by
  rw [List.getD_eq_getElem?_getD, getElem?_foldP h c l j hj h1 (by omega), if_neg (by omega),
    List.getD_eq_getElem?_getD]

variable [DecidableEq F] [DecidableEq G]

theorem forgeQuad_spec (E : Env F G) (coins : Nat → F × F) (pf : QuadPf F G) (r : F) (st : E.St)
    (as bs : List F) (gs hs : List G) (n : Nat) (u v : F) (hn1 : 1 < n) (hn2 : n ≤ 2 ^ 63)
    (hnp : n < next2power n) (ha : as.length = n)
    (hb : bs.length = n) (hg : gs.length = n) (hh : hs.length = n) :
    (forgeQuad E coins pf r st gs as hs bs n u v = .throw ∧
      ∃ pf' : QuadPf F G, pf'.C = pf.C ∧ pf'.Ls.length = log2roundUp n ∧ pf'.Rs.length = log2roundUp n ∧
        0 ∈ (deriveQuad E pf' n st).xs) ∨
    ∃ pf' : QuadPf F G, forgeQuad E coins pf r st gs as hs bs n u v = .ok (pf', (deriveQuad E pf' n st).st) ∧
      pf'.tag = pf.tag ∧ pf'.C = pf.C ∧
      pf'.Ls.length = log2roundUp n ∧ pf'.Rs.length = log2roundUp n ∧
      0 ∉ (deriveQuad E pf' n st).xs ∧
      (∀ (eq : F) (uoff voff : List F),
        QuadEq E pf' gs hs eq uoff voff (deriveQuad E pf' n st) ↔
        pf.C + eq • (deriveQuad E pf' n st).Fg =
          r • E.base + mexp as gs + mexp bs hs + mexp uoff gs + mexp voff hs
            + (dot as bs + u * v) • (deriveQuad E pf' n st).Fg) := by
  have hle := (log2roundUp_le hn2).2
  have hlev := level_log hn1.le hn2
  obtain ⟨m, hm⟩ : ∃ m, log2roundUp n = m + 1 := ⟨log2roundUp n - 1, by have := log2roundUp_half_lt hn1; omega⟩
  rw [hm] at hlev
  have hnp2 : n < next2power n / 2 + next2power n / 2 := by
    have h1 := hlev.half.2.2.2
    have h2 : next2power n = 2 ^ (m + 1) := by
      rw [← hm]; exact next2power_eq hn1.le hn2
    rw [pow_succ] at h2; omega
  simp only [forgeQuad, Env.newGenerator, Env.processPoint, lblC, lblF, lblS1, lblS2, lblx, lblL, lblR,
    Env.newChallenge]
  obtain ⟨h, hhd⟩ : ∃ h, h = next2power n / 2 := ⟨_, rfl⟩
  rw [← hhd] at hlev hnp2 ⊢
  obtain ⟨f, hf⟩ : ∃ f, f = E.challenge (E.commit st [67] (E.pointBytes pf.C)) [70] 32 := ⟨_, rfl⟩
  simp only [← hf]
  obtain ⟨hh1, hh2, hh3, hh4⟩ := hlev.half
  have hpos : 0 < h := by rw [hh4]; exact Nat.two_pow_pos m
  obtain ⟨L, hL⟩ : ∃ L, L = mexp (as.take h) (gs.drop h) + mexp (bs.drop h) (hs.take h)
    + dot (as.take h) (bs.drop h) • E.fromUniform f.1
    + (u • gs.getD (h - 1) 0 + (u * bs.getD (h - 1) 0) • E.fromUniform f.1) := ⟨_, rfl⟩
  obtain ⟨R, hR⟩ : ∃ R, R = mexp (as.drop h) (gs.take h) + mexp (bs.take h) (hs.drop h)
    + dot (as.drop h) (bs.take h) • E.fromUniform f.1
    + (v • hs.getD (h - 1) 0 + (as.getD (h - 1) 0 * v) • E.fromUniform f.1) := ⟨_, rfl⟩
  simp only [← hL, ← hR]
  obtain ⟨ch, hch⟩ : ∃ ch, ch = E.challenge (E.commit (E.commit f.2 (decBytes n ++ [76])
      (E.pointBytes L)) [82] (E.pointBytes R)) [120] 64 := ⟨_, rfl⟩
  simp only [← hch]
  have hfc : ∀ Ls Rs : List G, Ls.length = m → foldChallenges E n f.2 (L :: Ls) (R :: Rs) =
      (E.scalarReduce ch.1 :: (foldChallenges E h ch.2 Ls Rs).1, (foldChallenges E h ch.2 Ls Rs).2) := by
    intro Ls Rs hl
    rw [foldChallenges_cons, hl, ← hh4, ← hch]
  obtain ⟨x, hxd⟩ : ∃ x, x = E.scalarReduce ch.1 := ⟨_, rfl⟩
  rw [← hxd] at hfc ⊢
  by_cases hx : x = 0
  · left
    refine ⟨by rw [inverseOf, if_pos hx]; rfl, ⟨pf.tag, pf.C, L :: List.replicate m 0, R :: List.replicate m 0,
      0, 0, 0, 0, 0⟩, rfl, by simp [hm], by simp [hm], ?_⟩
    simp only [deriveQuad, ← hf]
    rw [hfc _ _ (by simp), hx]
    simp
  rw [inverseOf, if_neg hx]
  simp only [Res.ok_bind]
  have ea : addInto (as.take h) ((as.drop h).map (fun a => a * x⁻¹)) = foldS h x⁻¹ as := rfl
  have eb : addInto (bs.take h) ((bs.drop h).map (fun b => b * x)) = foldS h x bs := rfl
  have eg : addInto (gs.take h) ((gs.drop h).map (fun g => x • g)) = foldP h x gs := rfl
  have eh : addInto (hs.take h) ((hs.drop h).map (fun g => x⁻¹ • g)) = foldP h x⁻¹ hs := rfl
  rw [ea, eb, eg, eh]
  obtain ⟨as', has⟩ : ∃ l, l = (foldS h x⁻¹ as).modify (h - 1) (· + x * u) := ⟨_, rfl⟩
  obtain ⟨bs', hbs⟩ : ∃ l, l = (foldS h x bs).modify (h - 1) (· + x⁻¹ * v) := ⟨_, rfl⟩
  rw [← has, ← hbs]
  have la : as'.length = h := by rw [has]; simp; omega
  have lb : bs'.length = h := by rw [hbs]; simp; omega
  -- the invariant after the first level
  have hxy : x * x⁻¹ = 1 := mul_inv_cancel₀ hx
  have hyx : x⁻¹ * x = 1 := inv_mul_cancel₀ hx
  have inv1 : mexp as' (foldP h x gs) + mexp bs' (foldP h x⁻¹ hs) + dot as' bs' • E.fromUniform f.1 =
      mexp as gs + mexp bs hs + (dot as bs + u * v) • E.fromUniform f.1 + x • L + x⁻¹ • R := by
    rw [has, hbs, mexp_modify _ _ _ _ (by simp; omega), mexp_modify _ _ _ _ (by simp; omega),
      dot_modify _ _ _ _ _ (by simp; omega) (by simp; omega), getD_foldP _ _ _ _ (by omega) (by omega) (by omega),
      getD_foldP _ _ _ _ (by omega) (by omega) (by omega), mexp_fold hxy (by omega) (by omega),
      mexp_fold hyx (by omega) (by omega), dot_fold hxy (by omega) (by omega), foldS_eq_foldP, foldS_eq_foldP,
      getD_foldP _ _ _ _ (by omega) (by omega) (by omega), getD_foldP _ _ _ _ (by omega) (by omega) (by omega), hL, hR]
    have e3 : x * u * (x⁻¹ * v) = u * v := by rw [mul_mul_mul_comm, hxy, one_mul]
    rw [e3]
    module
  rcases proveQuadLoop_spec E coins (E.fromUniform f.1) m h (h / 2)
    ⟨[L], [R], foldP h x gs, as', foldP h x⁻¹ hs, bs', r, ch.2, 0⟩ hlev.next la lb (by simp; omega) (by simp; omega) with
    ⟨ht, Ls, Rs, hLs, hRs, hz⟩ |
    ⟨e, Ls, Rs, xs, he, hLs, hRs, hc, hz, heL, heR, hek, hea, heb, heg, heh, hinv⟩
  · left
    rw [ht]
    refine ⟨rfl, ⟨pf.tag, pf.C, L :: Ls, R :: Rs, 0, 0, 0, 0, 0⟩, rfl, by simp [hm, hLs], by simp [hm, hRs], ?_⟩
    simp only [deriveQuad, ← hf]
    rw [hfc _ _ hLs]
    exact List.mem_cons_of_mem _ hz
  · right
    simp only at hc heL heR hek hea heb heg heh hinv
    have hxl : xs.length = m := by
      have := length_foldChallenges E h ch.2 Ls Rs
      rw [hc] at this; simp at this; omega
    have hc' : foldChallenges E n f.2 (L :: Ls) (R :: Rs) = (x :: xs, e.st) := by rw [hfc _ _ hLs, hc]
    have hh5 : h ≤ 2 ^ xs.length := by rw [hxl, hh4]
    have fg : foldedSum (x :: xs) gs = foldedSum xs (foldP h x gs) := by
      have h1 := foldAll_singleton (x :: xs) gs (by omega) (by rw [hg, List.length_cons, hxl, ← hm]; exact hle)
      have h2 := foldAll_singleton xs (foldP h x gs) (by simp; omega) (by simp; omega)
      simp only [foldAll, hxl, ← hh4] at h1
      rw [h1] at h2; exact (List.cons.inj h2).1
    have fh : foldedSum ((x :: xs).map (·⁻¹)) hs = foldedSum (xs.map (·⁻¹)) (foldP h x⁻¹ hs) := by
      have h1 := foldAll_singleton ((x :: xs).map (·⁻¹)) hs (by omega) (by rw [hh, List.length_map, List.length_cons, hxl, ← hm]; exact hle)
      have h2 := foldAll_singleton (xs.map (·⁻¹)) (foldP h x⁻¹ hs) (by simp; omega) (by simp; omega)
      simp only [List.map_cons, foldAll, List.length_map, hxl, ← hh4] at h1
      rw [h1] at h2; exact (List.cons.inj h2).1
    rw [singleton_of_foldAll hpos la (by simpa using hh5)] at hea
    rw [singleton_of_foldAll hpos lb hh5] at heb
    rw [singleton_of_foldAll hpos (by simp; omega) hh5] at heg
    rw [singleton_of_foldAll hpos (by simp; omega) (by simpa using hh5)] at heh
    rw [he]
    simp only [Res.ok_bind]
    rw [hea, heb, heg, heh, rd_ok (by simp), rd_ok (by simp), rd_ok (by simp), rd_ok (by simp)]
    simp only [Res.ok_bind, List.getElem_cons_zero]
    rw [hea, heb, heg, heh] at hinv
    simp only [mexp_cons, mexp_nil_left, dot_cons, dot_nil_left, add_zero] at hinv
    have hd : ∀ (S1 S2 : G) (a b r' : F),
        deriveQuad E { pf with Ls := e.Ls, Rs := e.Rs, S1 := S1, S2 := S2, a := a, b := b, r := r' } n st =
        ⟨E.fromUniform f.1, x :: xs, E.scalarReduce (E.challenge (E.commit (E.commit e.st [83, 49]
            (E.pointBytes S1)) [83, 50] (E.pointBytes S2)) [120] 64).1,
          (E.challenge (E.commit (E.commit e.st [83, 49]
            (E.pointBytes S1)) [83, 50] (E.pointBytes S2)) [120] 64).2⟩ := by
      intro S1 S2 a b r'
      simp only [deriveQuad, ← hf, heL, heR, List.singleton_append, hc']
    refine ⟨_, congrArg Res.ok (Prod.ext rfl ?_), rfl, rfl,
      by simp only [heL]; simp [hLs, hm], by simp only [heR]; simp [hRs, hm], ?_, ?_⟩
    · rw [hd]
    · rw [hd]; simp only [List.mem_cons, not_or]; exact ⟨Ne.symm hx, hz⟩
    · intro eq uoff voff
      rw [hd]
      simp only [QuadEq, heL, heR, fg, fh, List.singleton_append]
      simp only [List.map_cons, mexp_cons]
      generalize E.scalarReduce (E.challenge _ _ _).1 = y
      generalize foldedSum (xs.map (·⁻¹)) as' = a0 at *
      generalize foldedSum (xs.map (·⁻¹)) (foldP h x⁻¹ hs) = h0 at *
      generalize foldedSum xs bs' = b0 at *
      generalize foldedSum xs (foldP h x gs) = g0 at *
      have h3 : e.r • E.base = r • E.base + (mexp as gs + mexp bs hs + (dot as bs + u * v) • E.fromUniform f.1 + x • L + x⁻¹ • R)
          + mexp xs Ls + mexp (xs.map (·⁻¹)) Rs - (a0 * b0) • E.fromUniform f.1 - a0 • g0 - b0 • h0 := by
        rw [← inv1]
        linear_combination (norm := module) hinv
      have h4 : (e.r + ((coins (e.k + 1)).1 + (coins (e.k + 1)).2 * y) * y) • E.base = e.r • E.base
          + (((coins (e.k + 1)).1 + (coins (e.k + 1)).2 * y) * y) • E.base := by module
      rw [h4, h3]
      constructor
      · intro h
        linear_combination (norm := module) h
      · intro h
        linear_combination (norm := module) h

theorem forgeQuad_iff (E : Env F G) (coins : Nat → F × F) (pf : QuadPf F G) (r : F) (st : E.St)
    (as bs : List F) (gs hs : List G) (n : Nat) (u v : F) (hn1 : 1 < n) (hn2 : n ≤ 2 ^ 63)
    (hnp : n < next2power n) (ha : as.length = n)
    (hb : bs.length = n) (hg : gs.length = n) (hh : hs.length = n) :
    (0 ∈ forgeChallenges E coins pf.C st gs as hs bs n u v ∧ forgeQuad E coins pf r st gs as hs bs n u v = .throw) ∨
    (0 ∉ forgeChallenges E coins pf.C st gs as hs bs n u v ∧
      ∃ out, forgeQuad E coins pf r st gs as hs bs n u v = .ok out) := by
  have hsp := forgeQuad_spec E coins pf r st as bs gs hs n u v hn1 hn2 hnp ha hb hg hh
  have hlev := level_log hn1.le hn2
  obtain ⟨m, hm⟩ : ∃ m, log2roundUp n = m + 1 := ⟨log2roundUp n - 1, by have := log2roundUp_half_lt hn1; omega⟩
  have hc : Nat.clog 2 n = m + 1 := by rw [← hm, log2roundUp_clog hn2]
  rw [hm] at hlev
  obtain ⟨hh1, hh2, hh3, hh4⟩ := hlev.half
  simp only [forgeQuad, Env.newGenerator, Env.processPoint, lblC, lblF, lblS1, lblS2, lblx, lblL, lblR,
    Env.newChallenge] at hsp ⊢
  unfold forgeChallenges
  rw [hc]
  simp only [Nat.add_sub_cancel, ← hh4]
  obtain ⟨h, hhd⟩ : ∃ h, h = next2power n / 2 := ⟨_, rfl⟩
  rw [← hhd] at hlev hh1 hh2 hh4 hsp ⊢
  obtain ⟨f, hf⟩ : ∃ f, f = E.challenge (E.commit st [67] (E.pointBytes pf.C)) [70] 32 := ⟨_, rfl⟩
  simp only [← hf] at hsp ⊢
  obtain ⟨L, hL⟩ : ∃ L, L = mexp (as.take h) (gs.drop h) + mexp (bs.drop h) (hs.take h)
    + dot (as.take h) (bs.drop h) • E.fromUniform f.1
    + (u • gs.getD (h - 1) 0 + (u * bs.getD (h - 1) 0) • E.fromUniform f.1) := ⟨_, rfl⟩
  obtain ⟨R, hR⟩ : ∃ R, R = mexp (as.drop h) (gs.take h) + mexp (bs.take h) (hs.drop h)
    + dot (as.drop h) (bs.take h) • E.fromUniform f.1
    + (v • hs.getD (h - 1) 0 + (as.getD (h - 1) 0 * v) • E.fromUniform f.1) := ⟨_, rfl⟩
  simp only [← hL, ← hR] at hsp ⊢
  obtain ⟨ch, hch⟩ : ∃ ch, ch = E.challenge (E.commit (E.commit f.2 (decBytes n ++ [76])
      (E.pointBytes L)) [82] (E.pointBytes R)) [120] 64 := ⟨_, rfl⟩
  simp only [← hch] at hsp ⊢
  obtain ⟨x, hxd⟩ : ∃ x, x = E.scalarReduce ch.1 := ⟨_, rfl⟩
  rw [← hxd] at hsp ⊢
  by_cases hx : x = 0
  · exact Or.inl ⟨by simp [hx], by rw [inverseOf, if_pos hx]; rfl⟩
  rw [inverseOf, if_neg hx] at hsp ⊢
  simp only [Res.ok_bind] at hsp ⊢
  have ea : addInto (as.take h) ((as.drop h).map (fun a => a * x⁻¹)) = foldS h x⁻¹ as := rfl
  have eb : addInto (bs.take h) ((bs.drop h).map (fun b => b * x)) = foldS h x bs := rfl
  have eg : addInto (gs.take h) ((gs.drop h).map (fun g => x • g)) = foldP h x gs := rfl
  have eh : addInto (hs.take h) ((hs.drop h).map (fun g => x⁻¹ • g)) = foldP h x⁻¹ hs := rfl
  rw [ea, eb, eg, eh] at hsp ⊢
  rw [← foldS_halve, ← foldS_halve, ← foldP_halve, ← foldP_halve, List.mem_cons, or_iff_right (Ne.symm hx)]
  rcases proveQuadLoop_levels E coins (E.fromUniform f.1) m h (h / 2)
    ⟨[L], [R], foldP h x gs, (foldS h x⁻¹ as).modify (h - 1) (· + x * u), foldP h x⁻¹ hs,
      (foldS h x bs).modify (h - 1) (· + x⁻¹ * v), r, ch.2, 0⟩ hlev.next (by simp; omega) (by simp; omega)
    (by simp; omega) (by simp; omega) with ⟨h1, h2⟩ | ⟨h1, e, Ls, Rs, h2, -⟩
  · exact Or.inl ⟨h1, by rw [h2]; rfl⟩
  · refine Or.inr ⟨h1, ?_⟩
    rw [h2] at hsp ⊢
    simp only [Res.ok_bind] at hsp ⊢
    rcases hsp with ⟨h3, -⟩ | ⟨pf', h3, -⟩
    · exfalso
      unfold rd at h3
      split at h3 <;> try (simp at h3)
      split at h3 <;> try (simp at h3)
      split at h3 <;> try (simp at h3)
      split at h3 <;> simp at h3
    · exact ⟨_, h3⟩

end

end Verif
